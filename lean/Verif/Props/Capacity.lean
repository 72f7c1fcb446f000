import Verif.Proofs.Capacity
import Verif.Props.Demo

/-!
# C15–C17: capacities hold over every window of time steps

`countBetween sel trace i j` is the number of platoons with a selected event in the steps `i, …, j-1`;
a platoon has `DELTAN` vehicles. `c` bounds the capacity over the whole history (capacities may be
changed by the user), `m` the number of lanes. Exact arithmetic.
-/

namespace UX
open World

/-- C15: inflow of a link over any window: `c` times the duration of the window, plus the burst
`DELTAN*lanes + c*max(1, DELTAT)`. -/
theorem C15_inflow {c : ℚ} {m : ℕ} {l : LinkId} {OK : World → Prop} (hO : ∀ W, OK W → InOK c m l W)
    {W : World} (h : Reachable OK W) (hl : l < W.nLinks) {i j : ℕ} (hij : i ≤ j) :
    W.cfg.deltan * (countBetween (entersLink l) W.trace i j : ℚ) ≤
      c * (((j : ℚ) - i) * W.dt) + (W.cfg.deltan * m + c * max 1 W.dt) := by
  have hok := hO W h.ok
  have := (InB.reach hO h hl).window (mul_nonneg (hok.cap.1.trans hok.cap.2) hok.dt) hij
  unfold inBound at this
  unfold World.dt
  linarith

/-- C15 as stated, with the burst `DELTAN*lanes + c*DELTAT`, when a time step is at least one second.
Missing: shorter time steps, for which the stated burst is exceeded (`C15_short_step_false`). -/
theorem C15_inflow_partial {c : ℚ} {m : ℕ} {l : LinkId} {OK : World → Prop}
    (hO : ∀ W, OK W → InOK c m l W) {W : World} (h : Reachable OK W) (hl : l < W.nLinks)
    (hdt : 1 ≤ W.dt) {i j : ℕ} (hij : i ≤ j) :
    W.cfg.deltan * (countBetween (entersLink l) W.trace i j : ℚ) ≤
      c * (((j : ℚ) - i) * W.dt) + (W.cfg.deltan * m + c * W.dt) := by
  have := C15_inflow hO h hl hij
  rwa [max_eq_right hdt] at this

/-- C16: the number of vehicles transferred out of a link over any window is at most `c` times the
duration of the window plus the burst `DELTAN*lanes + c*DELTAT`. -/
theorem C16_outflow {c : ℚ} {m : ℕ} {l : LinkId} {OK : World → Prop} (hO : ∀ W, OK W → OutOK c m l W)
    {W : World} (h : Reachable OK W) (hl : l < W.nLinks) {i j : ℕ} (hij : i ≤ j) :
    W.cfg.deltan * (countBetween (passesFrom l) W.trace i j : ℚ) ≤
      c * (((j : ℚ) - i) * W.dt) + (W.cfg.deltan * m + c * W.dt) := by
  have hok := hO W h.ok
  have := (OutB.reach hO h hl).window (mul_nonneg (hok.cap.1.trans hok.cap.2) hok.dt) hij
  unfold outBound at this
  unfold World.dt
  linarith

/-- C17: the number of vehicles passing a node with a flow capacity over any window is at most `c` times
the duration of the window plus the burst `DELTAN*lanes + c*DELTAT`. -/
theorem C17_node_flow {c : ℚ} {m : ℕ} {n : NodeId} {OK : World → Prop}
    (hO : ∀ W, OK W → FlowOK c m n W) {W : World} (h : Reachable OK W) (hf : W.finalized = true)
    (hn : n < W.nNodes) {i j : ℕ} (hij : i ≤ j) :
    W.cfg.deltan * (countBetween (passesNode n) W.trace i j : ℚ) ≤
      c * (((j : ℚ) - i) * W.dt) + (W.cfg.deltan * m + c * W.dt) := by
  have hok := hO W h.ok
  obtain ⟨q, -, h1, h2⟩ := hok.cap hf hn
  have := ((NodeB.reach hO h hn).2 hf).window (mul_nonneg (h1.trans h2) hok.dt) hij
  unfold outBound at this
  unfold World.dt
  linarith

/-- The remaining capacities are never negative. -/
theorem remain_nonneg {c c' : ℚ} {m : ℕ} {l : LinkId} {OK : World → Prop}
    (hI : ∀ W, OK W → InOK c m l W) (hO : ∀ W, OK W → OutOK c' m l W) {W : World} (h : Reachable OK W)
    (hl : l < W.nLinks) : 0 ≤ W.L.capInRem l ∧ 0 ≤ W.L.capOutRem l :=
  ⟨(InB.reach hI h hl).nonneg, (OutB.reach hO h hl).nonneg⟩

/-! ### Witnesses -/

/-- Two links in a row, the first with capacities, the node between them with a flow capacity. -/
def demoCap (k : ℕ) : List Cmd :=
  [.node { name := "a" }, .node { name := "b", flowCap := some (1/2) }, .node { name := "c" },
   .link { startN := .obj 0, endN := .obj 1, length := 200, capIn := some (1/2), capOut := some (1/2) },
   .link { startN := .obj 1, endN := .obj 2, length := 200 },
   .veh { orig := .obj 0, dest := some (.obj 2), dep := .step 0 },
   .veh { orig := .obj 0, dest := some (.obj 2), dep := .step 0 },
   .veh { orig := .obj 0, dest := some (.obj 2), dep := .step 0 },
   .fin (some 300)] ++ List.replicate k .tick

def capCheck (W : World) : Bool :=
  decide ((0 ≤ W.L.capIn 0 ∧ W.L.capIn 0 ≤ 1/2) ∧ (0 ≤ W.L.capOut 0 ∧ W.L.capOut 0 ≤ 1/2) ∧
    W.L.lanes 0 ≤ 1 ∧ (W.N.lanes 1).getD 0 ≤ 1 ∧
    (W.finalized = true → 1 < W.nNodes → W.N.flowCap 1 = some (1/2)))

theorem capCheck_ok {W : World} (hc : W.cfg = demoCfg) (h : capCheck W = true) :
    InOK (1/2) 1 0 W ∧ OutOK (1/2) 1 0 W ∧ FlowOK (1/2) 1 1 W := by
  unfold capCheck at h
  obtain ⟨h1, h2, h3, h4, h5⟩ := of_decide_eq_true h
  have h6 : W.cfg.fl = id := by rw [hc]; rfl
  have h7 : 0 ≤ W.cfg.deltat := by rw [hc]; decide +kernel
  exact ⟨⟨h6, h7, h1, h3⟩, ⟨h6, h7, h2, h3⟩, ⟨h6, h7,
    fun a b => ⟨1/2, h5 a b, by norm_num, le_refl _⟩, fun _ => h4⟩⟩

set_option maxRecDepth 100000 in
/-- The hypotheses of C15–C17 are met by a history in which the bounds restrict the flow: with 3 waiting
platoons of 5 vehicles, only 2 enter the first link within 4 steps of 5 s. -/
theorem capacity_witness : ∃ W, Reachable (fun W => InOK (1/2) 1 0 W ∧ OutOK (1/2) 1 0 W ∧
      FlowOK (1/2) 1 1 W) W ∧ W.finalized = true ∧ W.dt = 5 ∧
      countBetween (entersLink 0) W.trace 0 4 = 2 ∧ countBetween (passesFrom 0) W.trace 0 8 = 3 ∧
      countBetween (passesNode 1) W.trace 0 8 = 3 := by
  have h : obs (runChecked capCheck demoCfg (fun _ => 0) (demoCap 8)) (fun W => decide (
      W.finalized = true ∧ W.dt = 5 ∧
      countBetween (entersLink 0) W.trace 0 4 = 2 ∧ countBetween (passesFrom 0) W.trace 0 8 = 3 ∧
      countBetween (passesNode 1) W.trace 0 8 = 3)) = true := by
    decide +kernel
  obtain ⟨W, h1, h2⟩ := obs_ok h
  exact ⟨W, runChecked_reachable' (fun W hc hp => capCheck_ok hc hp) h1, of_decide_eq_true h2⟩

/-- one vehicle per platoon, time step 0.1 s -/
def shortCfg : Config := { demoCfg with deltan := 1, reactionTime := 1/10 }

/-- A link whose free-flow speed is raised after creation, and eight waiting vehicles. -/
def demoShort (k : ℕ) : List Cmd :=
  [.node { name := "a" }, .node { name := "b" },
   .link { startN := .obj 0, endN := .obj 1, length := 10000, u := 20 },
   .speed 0 1000] ++
  List.replicate 8 (.veh { orig := .obj 0, dest := some (.obj 1), dep := .step 0 }) ++
  [.fin (some 300)] ++ List.replicate k .tick

def shortCheck (W : World) : Bool :=
  decide (0 ≤ W.L.capIn 0 ∧ W.L.capIn 0 ≤ 40/7 ∧ W.L.lanes 0 ≤ 1)

theorem shortCheck_ok {W : World} (hc : W.cfg = shortCfg) (h : shortCheck W = true) :
    InOK (40/7) 1 0 W := by
  unfold shortCheck at h
  obtain ⟨h1, h2, h3⟩ := of_decide_eq_true h
  exact ⟨by rw [hc]; rfl, by rw [hc]; decide +kernel, ⟨h1, h2⟩, h3⟩

set_option maxRecDepth 100000 in
/-- C15 is false as stated for time steps shorter than one second: `capacity_in_remain` starts with
`2*capacity` without the factor `DELTAT` (uxsim.py:576). With DELTAN = 1, DELTAT = 0.1 and
capacity_in = 40/7, five vehicles enter a one-lane link within five steps, more than
`capacity_in*5*DELTAT + DELTAN*lanes + capacity_in*DELTAT`, about 4.43. -/
theorem C15_short_step_false : ∃ W, Reachable (InOK (40/7) 1 0) W ∧ W.dt = 1/10 ∧ W.cfg.deltan = 1 ∧
      W.L.capIn 0 = 40/7 ∧ W.L.lanes 0 = 1 ∧
      ¬ (W.cfg.deltan * (countBetween (entersLink 0) W.trace 1 6 : ℚ) ≤
        W.L.capIn 0 * ((6 - 1) * W.dt) + (W.cfg.deltan * W.L.lanes 0 + W.L.capIn 0 * W.dt)) := by
  have h : obs (runChecked shortCheck shortCfg (fun _ => 0) (demoShort 8)) (fun W => decide (
      W.dt = 1/10 ∧ W.cfg.deltan = 1 ∧ W.L.capIn 0 = 40/7 ∧ W.L.lanes 0 = 1 ∧
      ¬ (W.cfg.deltan * (countBetween (entersLink 0) W.trace 1 6 : ℚ) ≤
        W.L.capIn 0 * ((6 - 1) * W.dt) + (W.cfg.deltan * W.L.lanes 0 + W.L.capIn 0 * W.dt)))) = true := by
    decide +kernel
  obtain ⟨W, h1, h2⟩ := obs_ok h
  exact ⟨W, runChecked_reachable' (fun W hc hp => shortCheck_ok hc hp) h1, of_decide_eq_true h2⟩

end UX
