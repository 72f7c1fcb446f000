import Verif.Proofs.Signal
import Verif.Props.Demo
import Mathlib.Algebra.Order.Archimedean.Basic

/-! # C19, C20: fixed-time signals -/

namespace UX
open World

/-! ### C19 -/

/-- C19: as long as the number of phases of the nodes is not changed, the phase index is always valid. -/
theorem C19_valid {k : NodeId → ℕ} {OK : World → Prop}
    (hO : ∀ W, OK W → ∀ n, n < W.nNodes → (W.N.signal n).length = k n) {W : World} (h : Reachable OK W)
    {n : NodeId} (hn : n < W.nNodes) : W.N.phase n < (W.N.signal n).length := by
  rw [hO W h.ok n hn]; exact phase_valid hO h n hn

/-- C19: in each time step a signal keeps its phase or goes to the next one in cyclic order, and the
phase is appended to the log. Holds for any rounding and any plan. -/
theorem C19_cyclic {W W' : World} (h : Reachable Any W) (hf : W.finalized = true) (ht : W.tick = .ok W')
    {n : NodeId} (hn : n < W.nNodes) : W'.N.signal n = W.N.signal n ∧
      (W'.N.phase n = W.N.phase n ∨ W'.N.phase n = (W.N.phase n + 1) % (W.N.signal n).length) ∧
      W'.N.signalLog n = W'.N.phase n :: W.N.signalLog n := by
  obtain ⟨W1, h1, rfl⟩ := tick_ok ht
  obtain ⟨b1, b2, b3, b4⟩ := step_signal h.inv hf h1 hn
  refine ⟨by show W1.N.signal n = _; rw [b2], ?_, b4⟩
  have e : W1.N.phase n = (sigNext W.cfg.fl W.cfg.deltat (W.N.signal n) (W.N.phase n, W.N.signalT n)).1 := by
    rw [← b3]
  show W1.N.phase n = _ ∨ W1.N.phase n = _
  rw [e]
  unfold sigNext
  dsimp only
  split
  · right
    dsimp only
    split
    · have : W.N.phase n + 1 = (W.N.signal n).length := by omega
      rw [this, Nat.mod_self]
    · rw [Nat.mod_eq_of_lt (by omega)]
  · exact .inl rfl

/-- `W'` is reached from `W` by `k` time steps, and any API calls in between that do not touch the signal
of node `n`. -/
inductive SignalRun (n : NodeId) (W : World) : World → ℕ → Prop
  | refl : SignalRun n W W 0
  | tick {W1 W2 k} : SignalRun n W W1 k → W1.finalized = true → W1.T < W1.tsize → W1.tick = .ok W2 →
      SignalRun n W W2 (k + 1)
  | call {W1 W2 k} : SignalRun n W W1 k → ApiStep W1 W2 → W2.T = W1.T → W2.N.signal n = W1.N.signal n →
      W2.N.phase n = W1.N.phase n → W2.N.signalT n = W1.N.signalT n →
      W2.N.signalLog n = W1.N.signalLog n → SignalRun n W W2 k

theorem Reachable.next_any {W W' : World} (h : Reachable Any W) (hs : ApiStep W W') : Reachable Any W' :=
  .next h hs trivial

theorem api_nNodes {W W' : World} (h : Reachable Any W) (hs : ApiStep W W') : W.nNodes ≤ W'.nNodes := by
  rcases hs.signals with ⟨hf, fuel, a, ph, t, soff, hi, rfl⟩ | ⟨hf, hT, ht⟩ | ⟨m, sg, off, reset, hm, he⟩ | he
  · exact Nat.le_succ _
  · obtain ⟨W1, hst, rfl⟩ := tick_ok ht
    obtain ⟨W6, hss, rfl⟩ := step_star (h.inv.core hf) hst
    show W.nNodes ≤ W6.nNodes
    rw [hss.static.nNodes]
  · rw [he.nNodes]; exact le_refl _
  · rw [he.nNodes]

/-- C19: exact arithmetic, nonnegative green times. The phases shown in `k` consecutive time steps are
those of the schedule: the current phase for its remaining steps, then the phases in cyclic order, each
for the same number of steps in every cycle. -/
theorem C19_schedule {W W' : World} {n : NodeId} {k : ℕ} (h : Reachable Any W) (hr : SignalRun n W W' k)
    (hn : n < W.nNodes) (hfl : W.cfg.fl = id) (hdt : 0 < W.dt) (hg : ∀ g ∈ W.N.signal n, 0 ≤ g)
    (hp : W.N.phase n < (W.N.signal n).length) :
    W'.N.signalLog n = ((List.range k).map
      (schedule W.dt (W.N.signal n) (W.N.phase n) (W.N.signalT n))).reverse ++ W.N.signalLog n := by
  have key : Reachable Any W' ∧ n < W'.nNodes ∧ W'.cfg = W.cfg ∧ W'.N.signal n = W.N.signal n ∧
      (W'.N.phase n, W'.N.signalT n) =
        (sigNext id W.dt (W.N.signal n))^[k] (W.N.phase n, W.N.signalT n) ∧
      W'.N.signalLog n = ((List.range k).map
        (schedule W.dt (W.N.signal n) (W.N.phase n) (W.N.signalT n))).reverse ++ W.N.signalLog n := by
    induction hr with
    | refl => exact ⟨h, hn, rfl, rfl, rfl, by simp⟩
    | @tick W1 W2 k hr hf hT ht ih =>
      obtain ⟨i1, i2, i3, i4, i5, i6⟩ := ih
      have hs : ApiStep W1 W2 := .tick hf hT ht
      refine ⟨i1.next_any hs, Nat.lt_of_lt_of_le i2 (api_nNodes i1 hs), (hs.cfg i1.inv).trans i3, ?_⟩
      obtain ⟨W3, h1, rfl⟩ := tick_ok ht
      obtain ⟨b1, b2, b3, b4⟩ := step_signal i1.inv hf h1 i2
      have e : (W3.N.phase n, W3.N.signalT n) =
          (sigNext id W.dt (W.N.signal n))^[k + 1] (W.N.phase n, W.N.signalT n) := by
        rw [b3, Function.iterate_succ_apply', ← i5, i3, i4, hfl]
        rfl
      refine ⟨by show W3.N.signal n = _; rw [b2, i4], e, ?_⟩
      show W3.N.signalLog n = _
      rw [b4, i6, List.range_succ, List.map_append, List.reverse_append]
      have e1 : W3.N.phase n = schedule W.dt (W.N.signal n) (W.N.phase n) (W.N.signalT n) k := by
        rw [← sig_schedule hdt hg hp, ← e]
      rw [e1]; rfl
    | @call W1 W2 k hr hs hT e1 e2 e3 e4 ih =>
      obtain ⟨i1, i2, i3, i4, i5, i6⟩ := ih
      exact ⟨i1.next_any hs, Nat.lt_of_lt_of_le i2 (api_nNodes i1 hs), (hs.cfg i1.inv).trans i3, e1.trans i4,
        by rw [e2, e3]; exact i5, e4.trans i6⟩
  exact key.2.2.2.2.2

/-- C19, the duration of a phase in the schedule: the smallest number of steps longer than the green
time. Hence a phase lasts longer than its green time, by at most one step. -/
theorem C19_duration_partial {dt g : ℚ} (hdt : 0 < dt) (hg : 0 ≤ g) :
    g < greenSteps dt g * dt ∧ greenSteps dt g * dt ≤ g + dt := by
  have h0 : 0 ≤ ⌊g / dt⌋ := Int.floor_nonneg.mpr (div_nonneg hg hdt.le)
  have hc : ((greenSteps dt g : ℕ) : ℚ) = ⌊g / dt⌋ + 1 := by
    unfold greenSteps
    have : (((⌊g / dt⌋ + 1).toNat : ℤ) : ℚ) = ((⌊g / dt⌋ + 1 : ℤ) : ℚ) := by
      rw [Int.toNat_of_nonneg (by omega)]
    push_cast at this; exact this
  rw [hc]
  have h1 := Int.lt_floor_add_one (g / dt)
  have h2 := Int.floor_le (g / dt)
  rw [div_lt_iff₀ hdt] at h1
  rw [le_div_iff₀ hdt] at h2
  exact ⟨h1, by linarith⟩

/-! ### C20 -/

/-- C20: exact arithmetic, nonnegative green times with a positive sum, a `signal_offset` not above the
cycle length. Adding the node terminates, and the signal starts in the position of its cycle that makes a
cycle begin `signal_offset` seconds after time zero. Missing: offsets above the cycle length
(`C20_large_offset_false`). -/
theorem C20_offset_partial {W : World} {a : NodeArgs} (hfl : W.cfg.fl = id)
    (hnew : W.nodeDict a.name = none) (hg : ∀ g ∈ a.signal, 0 ≤ g) (hpos : 0 < a.signal.sum)
    (hold : a.signalOffsetOld = none) (hoff : a.signalOffset ≤ a.signal.sum) :
    ∃ (fuel : ℕ) (p : ℕ) (t : ℚ) (j : ℤ), CyclePos a.signal (j * a.signal.sum - a.signalOffset) p t ∧
      ∀ k, ∃ W', W.addNode (fuel + k) a = .ok W' ∧ W'.N.phase W.nNodes = p ∧
        W'.N.signalT W.nNodes = t ∧ W'.N.signal W.nNodes = a.signal := by
  have hne : a.signal ≠ [0] := by rintro e; rw [e] at hpos; simp at hpos
  obtain ⟨m, hm⟩ := exists_nat_gt ((a.signal.sum - a.signalOffset) / a.signal.sum)
  have hlt : a.signal.sum - a.signalOffset < (m + 1) * a.signal.sum := by
    rw [div_lt_iff₀ hpos] at hm; linarith
  have hs := findPhase_spec hg hpos m _ (by linarith) hlt
  obtain ⟨p, t, j, h1, h2, h3, h4, h5⟩ := hs 0
  refine ⟨(m + 1) * a.signal.length, p, t, 1 - j, ⟨?_, h4, h5⟩, fun k => ?_⟩
  · rw [h3]; push_cast; ring
  · have hi : initSignal W.cfg.fl ((m + 1) * a.signal.length + k) a = .ok (p, t, a.signalOffset) := by
      obtain ⟨p', t', j', g1, g2, g3, g4, g5⟩ := hs k
      have hsame : findPhase id a.signal ((m + 1) * a.signal.length + k) (a.signal.sum - a.signalOffset) 0 =
          .ok (p, t) := findPhase_mono (by simpa using h1) k
      unfold initSignal
      rw [hfl, hold, cycleLength_id]
      dsimp only
      rw [if_neg hne, id, hsame]
    unfold addNode
    rw [hi]
    dsimp only
    rw [hnew]
    exact ⟨_, rfl, by simp, by simp, by simp⟩

/-- C20 for the deprecated argument `signal_offset_old`: the cycle began that many seconds before time
zero. Nonnegative values only; there is no upper limit. -/
theorem C20_offset_old {W : World} {a : NodeArgs} (hfl : W.cfg.fl = id)
    (hnew : W.nodeDict a.name = none) (hg : ∀ g ∈ a.signal, 0 ≤ g) (hpos : 0 < a.signal.sum) {o : ℚ}
    (hold : a.signalOffsetOld = some o) (hoff : 0 ≤ o) :
    ∃ (fuel : ℕ) (p : ℕ) (t : ℚ) (j : ℕ), CyclePos a.signal (o - j * a.signal.sum) p t ∧
      ∀ k, ∃ W', W.addNode (fuel + k) a = .ok W' ∧ W'.N.phase W.nNodes = p ∧
        W'.N.signalT W.nNodes = t ∧ W'.N.signal W.nNodes = a.signal := by
  have hne : a.signal ≠ [0] := by rintro e; rw [e] at hpos; simp at hpos
  obtain ⟨m, hm⟩ := exists_nat_gt (o / a.signal.sum)
  have hlt : o < (m + 1) * a.signal.sum := by
    rw [div_lt_iff₀ hpos] at hm; linarith
  have hs := findPhase_spec hg hpos m _ hoff hlt
  obtain ⟨p, t, j, h1, h2, h3, h4, h5⟩ := hs 0
  refine ⟨(m + 1) * a.signal.length, p, t, j, ⟨h3.symm, h4, h5⟩, fun k => ?_⟩
  have hi : initSignal W.cfg.fl ((m + 1) * a.signal.length + k) a =
      .ok (p, t, a.signal.sum - o) := by
    have hsame : findPhase id a.signal ((m + 1) * a.signal.length + k) o 0 =
        .ok (p, t) := findPhase_mono (by simpa using h1) k
    unfold initSignal
    rw [hfl, hold, cycleLength_id]
    dsimp only
    rw [if_neg hne]
    have e : id (a.signal.sum - id (a.signal.sum - o)) = o := by simp only [id]; ring
    rw [e, hsame]; rfl
  unfold addNode
  rw [hi]
  dsimp only
  rw [hnew]
  exact ⟨_, rfl, by simp, by simp, by simp⟩

/-- C20, termination: exact arithmetic, nonnegative green times with a positive sum. Adding a node
terminates for every offset. -/
theorem C20_terminates {W : World} {a : NodeArgs} (hfl : W.cfg.fl = id)
    (hnew : W.nodeDict a.name = none) (hg : ∀ g ∈ a.signal, 0 ≤ g) (hpos : 0 < a.signal.sum) :
    ∃ (fuel : ℕ) (W' : World), ∀ k, W.addNode (fuel + k) a = .ok W' := by
  have hne : a.signal ≠ [0] := by rintro e; rw [e] at hpos; simp at hpos
  have key : ∀ off : ℚ, ∃ fuel r, findPhase id a.signal fuel off 0 = .ok r := by
    intro off
    rcases le_or_gt 0 off with h0 | h0
    · obtain ⟨m, hm⟩ := exists_nat_gt (off / a.signal.sum)
      obtain ⟨p, t, j, h1, -⟩ := findPhase_spec hg hpos m off h0
        (by rw [div_lt_iff₀ hpos] at hm; linarith) 0
      exact ⟨_, _, h1⟩
    · cases hs : a.signal with
      | nil => rw [hs] at hpos; simp at hpos
      | cons g t =>
        exact ⟨1, _, findPhase_neg (g := g) (by simp)
          (lt_of_lt_of_le h0 (hg g (by rw [hs]; simp))) 0⟩
  have hdef : ∃ soff, ∀ fuel, initSignal W.cfg.fl fuel a =
      (findPhase W.cfg.fl a.signal fuel (W.cfg.fl (cycleLength W.cfg.fl a.signal - soff)) 0).map
        (fun r => (r.1, r.2, soff)) := by
    cases ho : a.signalOffsetOld with
    | none =>
      refine ⟨a.signalOffset, fun fuel => ?_⟩
      unfold initSignal
      rw [ho]
      dsimp only
      rw [if_neg hne]
      split <;> rename_i h <;> rw [h] <;> rfl
    | some o =>
      refine ⟨W.cfg.fl (cycleLength W.cfg.fl a.signal - o), fun fuel => ?_⟩
      unfold initSignal
      rw [ho]
      dsimp only
      rw [if_neg hne]
      split <;> rename_i h <;> rw [h] <;> rfl
  obtain ⟨soff, hdef⟩ := hdef
  obtain ⟨fuel, ⟨p, t⟩, hr⟩ := key (W.cfg.fl (cycleLength W.cfg.fl a.signal - soff))
  refine ⟨fuel, W.addNodeRes a p t soff, fun k => ?_⟩
  have hi : initSignal W.cfg.fl (fuel + k) a = .ok (p, t, soff) := by
    rw [hdef]
    have := findPhase_mono hr k
    rw [hfl] at this ⊢
    rw [this]; rfl
  unfold addNode
  rw [hi]
  dsimp only
  rw [hnew]
  rfl

/-! ### Witnesses -/

def demoSig (sg : List ℚ) (off : ℚ) (k : ℕ) : List Cmd :=
  [.node { name := "a", signal := sg, signalOffset := off }, .node { name := "b" },
   .link { startN := .obj 0, endN := .obj 1, length := 200 }, .fin (some 300)] ++ List.replicate k .tick

/-- C19 is false as stated: with time steps of 5 s and green times of 10 s each phase lasts 3 steps,
15 s. The hypotheses of `C19_valid`, `C19_cyclic`, `C19_schedule` are met. -/
theorem C19_duration_false : ∃ W, Reachable (fun W => ∀ n, n < W.nNodes →
        (W.N.signal n).length = if n = 0 then 2 else 1) W ∧
      W.dt = 5 ∧ W.cfg.fl = id ∧ W.finalized = true ∧ W.N.signal 0 = [10, 10] ∧
      (W.N.signalLog 0).reverse = [0, 0, 0, 1, 1, 1, 0, 0, 0, 1, 1, 1] := by
  have h : obs (runChecked (fun W => decide (∀ n < W.nNodes,
      (W.N.signal n).length = if n = 0 then 2 else 1)) demoCfg (fun _ => 0) (demoSig [10, 10] 0 12))
      (fun W => decide (W.dt = 5 ∧ W.finalized = true ∧ W.N.signal 0 = [10, 10] ∧
        (W.N.signalLog 0).reverse = [0, 0, 0, 1, 1, 1, 0, 0, 0, 1, 1, 1])) = true := by
    decide +kernel
  obtain ⟨W, h1, h2⟩ := obs_ok h
  have hr := runChecked_reachable' (OK := fun W => W.cfg = demoCfg ∧ ∀ n, n < W.nNodes →
        (W.N.signal n).length = if n = 0 then 2 else 1) (fun W hc hp => ⟨hc, of_decide_eq_true hp⟩) h1
  obtain ⟨h3, h4, h5, h6⟩ := of_decide_eq_true h2
  exact ⟨W, hr.mono (fun W h => h.2), h3, by rw [hr.ok.1]; rfl, h4, h5, h6⟩

/-- The phase index can become invalid when a plan is replaced by a shorter one without reset: the next
time step raises an `IndexError`. -/
theorem C19_override_false : ∃ W, Reachable Any W ∧ W.finalized = true ∧ W.N.signal 0 = [10] ∧
      W.N.phase 0 = 1 ∧ W.tick = .error .indexError := by
  have h : obs (runCmds demoCfg (fun _ => 0) (demoSig [10, 10] 0 4 ++ [.signal 0 [10] 0 false]))
      (fun W => decide (W.finalized = true ∧ W.N.signal 0 = [10] ∧ W.N.phase 0 = 1) &&
        (match W.tick with | .error .indexError => true | _ => false)) = true := by
    decide +kernel
  obtain ⟨W, h1, h2⟩ := obs_ok h
  rw [Bool.and_eq_true] at h2
  obtain ⟨h3, h4, h5⟩ := of_decide_eq_true h2.1
  refine ⟨W, runCmds_reachable h1, h3, h4, h5, ?_⟩
  have h6 := h2.2
  split at h6
  · assumption
  · cases h6

/-- C20 is false for an offset above the cycle length: plan [10, 10] with offset 30 is the plan with
offset 10, which starts with phase 1; the code starts with phase 0 and an elapsed time of -10. -/
theorem C20_large_offset_false : ∃ W, Reachable Any W ∧ W.N.signal 0 = [10, 10] ∧ W.N.signalOffset 0 = 30 ∧
      W.N.phase 0 = 0 ∧ W.N.signalT 0 = -10 ∧
      ∃ W', Reachable Any W' ∧ W'.N.signal 0 = [10, 10] ∧ W'.N.signalOffset 0 = 10 ∧ W'.N.phase 0 = 1 ∧
        W'.N.signalT 0 = 0 := by
  have h : obs (runCmds demoCfg (fun _ => 0) (demoSig [10, 10] 30 0)) (fun W => decide (
      W.N.signal 0 = [10, 10] ∧ W.N.signalOffset 0 = 30 ∧ W.N.phase 0 = 0 ∧ W.N.signalT 0 = -10)) = true := by
    decide +kernel
  have h' : obs (runCmds demoCfg (fun _ => 0) (demoSig [10, 10] 10 0)) (fun W => decide (
      W.N.signal 0 = [10, 10] ∧ W.N.signalOffset 0 = 10 ∧ W.N.phase 0 = 1 ∧ W.N.signalT 0 = 0)) = true := by
    decide +kernel
  obtain ⟨W, h1, h2⟩ := obs_ok h
  obtain ⟨W', h1', h2'⟩ := obs_ok h'
  obtain ⟨a1, a2, a3, a4⟩ := of_decide_eq_true h2
  exact ⟨W, runCmds_reachable h1, a1, a2, a3, a4, W', runCmds_reachable h1', of_decide_eq_true h2'⟩

/-- Without a positive total the loop of `Node.__init__` does not end: plan [0, 0]. -/
theorem C20_zero_plan_false (W : World) (hfl : W.cfg.fl = id) (fuel : ℕ) :
    W.addNode fuel { name := "a", signal := [0, 0] } = .error .diverge := by
  have key : ∀ k i, i < 2 → findPhase id [0, 0] k 0 i = .error .diverge := by
    intro k
    induction k with
    | zero => intro i _; rfl
    | succ k ih =>
      intro i hi
      unfold findPhase
      obtain rfl | rfl : i = 0 ∨ i = 1 := by omega
      · simp only [List.getElem?_cons_zero, lt_self_iff_false, if_false]
        have := ih 1 (by omega)
        simpa using this
      · have := ih 0 (by omega)
        simpa using this
  have hi : initSignal W.cfg.fl fuel { name := "a", signal := [0, 0] } = .error .diverge := by
    unfold initSignal
    rw [hfl, cycleLength_id]
    have := key fuel 0 (by omega)
    simp [this]
  unfold addNode
  rw [hi]

end UX
