import Verif.Props.CppExample
import Verif.Spec.CppPlaces

/-!
# C79: the C++ engine never loses or duplicates a vehicle
-/

namespace UX
open Cpp Cpp.Spec Cpp.CWorld

/-- **C79.** In every world that calls of the bindings can produce (whatever the number of threads,
also after an exception) every vehicle is where its state says: at home or finished vehicles are in no
queue, a waiting one is exactly once in the generation queue of its origin, a running one exactly once
in the queue of the link it points to. -/
theorem C79_places {W : CWorld} (h : CReach W) {v : ℕ} (hv : v < W.g.nVehs) : PlaceOK W v := by
  have i := h.rest.inv
  have none_wait : ∀ n, (W.veh v).state ≠ .wait → v ∉ (W.node n).genQ := fun n hs hm =>
    hs ((i.gen n v).1 hm).2.1
  have none_run : ∀ l, (W.veh v).state ≠ .run → v ∉ (W.link l).vehs := fun l hs hm =>
    hs (i.mem l v hm).2.1
  unfold PlaceOK
  cases hs : (W.veh v).state with
  | home =>
    exact ⟨i.idle v hv (by rw [hs]; simp), fun l => none_run l (by rw [hs]; simp),
      fun n => none_wait n (by rw [hs]; simp)⟩
  | ended =>
    exact ⟨i.idle v hv (by rw [hs]; simp), fun l => none_run l (by rw [hs]; simp),
      fun n => none_wait n (by rw [hs]; simp)⟩
  | abort =>
    exact ⟨i.idle v hv (by rw [hs]; simp), fun l => none_run l (by rw [hs]; simp),
      fun n => none_wait n (by rw [hs]; simp)⟩
  | wait =>
    refine ⟨i.idle v hv (by rw [hs]; simp), ?_, fun n hn hm => ?_, fun l => none_run l (by rw [hs]; simp)⟩
    · exact List.count_eq_one_of_mem (i.gnd _) ((i.gen _ v).2 ⟨hv, hs, rfl⟩)
    · exact hn ((i.gen n v).1 hm).2.2.symm
  | run =>
    rcases i.run v hv hs with h' | ⟨l, hl⟩
    · simp at h'
    · obtain ⟨a, _, c, _⟩ := i.mem l v hl
      exact ⟨l, c, a, List.count_eq_one_of_mem (i.nd l) hl, fun m hm hm' => hm (i.uniq hm' hl),
        fun n => none_wait n (by rw [hs]; simp)⟩

/-- **C79.** The queues contain vehicles only, and only of the network: nothing else can be found by
walking them. -/
theorem C79_queues {W : CWorld} (h : CReach W) :
    (∀ l, (W.link l).vehs.Nodup ∧ ∀ v ∈ (W.link l).vehs, l < W.g.nLinks ∧ v < W.g.nVehs ∧
      (W.veh v).state = .run ∧ (W.veh v).link = some l) ∧
    ∀ n, (W.node n).genQ.Nodup ∧ ∀ v ∈ (W.node n).genQ, n < W.g.nNodes ∧ v < W.g.nVehs ∧
      (W.veh v).state = .wait ∧ (W.veh v).orig = n := by
  have i := h.rest.inv
  refine ⟨fun l => ⟨i.nd l, fun v hv => ?_⟩, fun n => ⟨i.gnd n, fun v hv => ?_⟩⟩
  · obtain ⟨a, b, c, d, _⟩ := i.mem l v hv
    exact ⟨c, d, b, a⟩
  · obtain ⟨a, b, c⟩ := (i.gen n v).1 hv
    exact ⟨c ▸ i.orig v a, a, b, c⟩

/-- **C79.** The leader and follower pointers of the vehicles on a link are those of its queue. -/
theorem C79_chain {W : CWorld} (h : CReach W) {l : ℕ} (hl : l < W.g.nLinks) : ChainOK W l :=
  h.rest.inv.linked l hl

/-- **C79.** The link lists of the nodes are those of the links' end nodes, and no link ends outside
the network. -/
theorem C79_network {W : CWorld} (h : CReach W) :
    (∀ n l, l ∈ (W.node n).outLinks ↔ l < W.g.nLinks ∧ (W.link l).src = n) ∧
    (∀ n l, l ∈ (W.node n).inLinks ↔ l < W.g.nLinks ∧ (W.link l).dst = n) ∧
    ∀ l, l < W.g.nLinks → (W.link l).src < W.g.nNodes ∧ (W.link l).dst < W.g.nNodes :=
  ⟨h.rest.inv.outL, h.rest.inv.inL, fun l hl => ⟨(h.rest.inv.ends l hl).1, (h.rest.inv.ends l hl).2.1⟩⟩

/-- Buffers are empty after a time step without exception. -/
theorem Cpp.stepWith_buffers {σ : Sched} {home : List ℕ} {W W' : CWorld}
    (h : stepWith σ home W = (W', none)) :
    (∀ n, n < W'.g.nNodes → (W'.node n).runBuf = []) ∧ ∀ l, l < W'.g.nLinks → (W'.link l).ended = [] := by
  unfold stepWith at h
  simp only at h
  split at h
  · simp at h
  · have h' := (Prod.mk.inj h).1
    subst h'
    generalize home.foldl (fun (W : CWorld) v => W.vehUpdate v none) (region σ W.clearExc) = W2
    obtain ⟨_, _, _, hn, hl, _, _, hnode, hlink⟩ := routeStep_same W2.reconcile
    refine ⟨fun n hlt => ?_, fun l hlt => ?_⟩
    · rw [hn] at hlt
      rw [hnode]
      simp only [reconcile] at hlt ⊢
      rw [if_pos hlt]
    · rw [hl] at hlt
      have : (W2.reconcile.routeStep.link l).core.ended = (W2.reconcile.link l).core.ended := by rw [hlink]
      rw [show (W2.reconcile.routeStep.link l).ended = (W2.reconcile.link l).ended from this]
      simp only [reconcile] at hlt ⊢
      rw [if_pos hlt]

theorem Cpp.loopFrom_buffers {sched : ℕ → CWorld → Sched} {buckets : ℕ → List ℕ} (k : ℕ) {W W' : CWorld}
    (h : loopFrom sched buckets (k + 1) W = (W', none)) :
    (∀ n, n < W'.g.nNodes → (W'.node n).runBuf = []) ∧ ∀ l, l < W'.g.nLinks → (W'.link l).ended = [] := by
  induction k generalizing W with
  | zero =>
    unfold loopFrom at h
    split at h
    · simp at h
    · rename_i W1 he
      have hb := stepWith_buffers he
      unfold loopFrom at h
      have h' := (Prod.mk.inj h).1
      subst h'
      exact hb
  | succ k ih =>
    rw [loopFrom] at h
    split at h
    · simp at h
    · exact ih h

/-- **C79.** After `main_loop` has made at least one time step and returned, the registries
`vehicles_running` and `vehicles_living` contain exactly the vehicles in state `RUN` and exactly those
that have not ended or been aborted. -/
theorem C79_registries {W W' : CWorld} (h : CReach W) {endTs : ℕ} {sched : ℕ → CWorld → Sched}
    (hs : ∀ t V, (sched t V).Valid V) (ht : W.g.timestep < min endTs W.g.totalSteps)
    (hr : W.mainLoop sched endTs = (W', none)) {v : ℕ} (hv : v < W'.g.nVehs) :
    (W'.g.running v = true ↔ (W'.veh v).state = .run) ∧
    (W'.g.living v = true ↔ (W'.veh v).state ≠ .ended ∧ (W'.veh v).state ≠ .abort) := by
  have hreach : CReach W' := by
    have := CReach.step h (CStep.run W endTs sched hs)
    rw [hr] at this; exact this
  have i := hreach.rest.inv
  have hb : (∀ n, n < W'.g.nNodes → (W'.node n).runBuf = []) ∧
      ∀ l, l < W'.g.nLinks → (W'.link l).ended = [] := by
    obtain ⟨k, hk⟩ : ∃ k, min endTs W.g.totalSteps - W.g.timestep = k + 1 :=
      ⟨min endTs W.g.totalSteps - W.g.timestep - 1, by omega⟩
    unfold mainLoop at hr
    rw [hk] at hr
    exact loopFrom_buffers k hr
  constructor
  · rw [i.reg1 v hv]
    constructor
    · intro h; exact ⟨Or.inl h, fun l hl => by rw [hb.2 l hl]; simp⟩
    · rintro ⟨h | ⟨n, hn, h⟩, _⟩
      · exact h
      · rw [hb.1 n hn] at h; simp at h
  · rw [← not_or, i.reg2 v hv, not_or]
    constructor
    · intro h
      refine ⟨by rw [h]; simp, ?_⟩
      rintro ⟨l, hl, h'⟩
      rw [hb.2 l hl] at h'; simp at h'
    · rintro ⟨h, _⟩; simpa using h

/-- Before time step 8 of the example: vehicle 0 has arrived, vehicles 1 and 2 are on link 1, vehicle 3
on link 0, vehicle 4 at home; vehicle 2 follows vehicle 1. -/
example : ((List.range 5).map fun v => ((cppEx 8).veh v).state) = [.ended, .run, .run, .run, .home] ∧
    ((cppEx 8).link 1).vehs = [1, 2] ∧ ((cppEx 8).link 0).vehs = [3] ∧
    ((cppEx 8).veh 2).leader = some 1 ∧ ((cppEx 8).veh 1).follower = some 2 ∧
    ((List.range 5).map (cppEx 8).g.running) = [false, true, true, true, false] ∧
    ((List.range 5).map (cppEx 8).g.living) = [false, true, true, true, true] := by
  decide +kernel

example {v : ℕ} (hv : v < (cppEx 8).g.nVehs) : PlaceOK (cppEx 8) v := C79_places (cppEx_reach 8) hv

end UX
