import Verif.Props.Demo
import Verif.Proofs.CarryTurn

/-!
# C106: Newell's law and movement beyond the end of a link
-/

namespace UX
open World PySpec

variable {OK : World → Prop} {W W' : World}

/-- **C106.** A time step that does not raise goes through the turns of all nodes; each turn is the transfer of
the node. -/
theorem C106_turns (h : Reachable OK W) (hf : W.finalized = true) (ht : W.tick = .ok W') :
    (∀ n, n ≤ W.nNodes → ∃ X, turn W n = .ok X) ∧
    ∀ n X, turn W n = .ok X → turn W (n + 1) = X.transfer n := by
  obtain ⟨W1, h1, rfl⟩ := tick_ok ht
  obtain ⟨A, B, C, D, E, F, hp, rfl, hC⟩ := step_turn (h.inv.core hf) h1
  exact ⟨fun n hn => turn_le hn hC, fun n X hX => turn_succ hX⟩

/-- **C106.** A vehicle on a link at the end of a time step was on it after the transfers. It has moved as
far as Newell's law lets it, with respect to the vehicle as many places ahead as there are lanes, at most to the
end of the link. If it could have moved further, what is left is remembered. -/
theorem C106_rest (h : Reachable OK W) (hf : W.finalized = true) (ht : W.tick = .ok W') {v : VehId}
    {l : LinkId} (hv : v ∈ W'.L.vehs l) :
    ∃ X i, turn W W.nNodes = .ok X ∧ (X.L.vehs l)[i]? = some v ∧
      let p := beyond W l (X.V.x v) ((ahead X l i).map X.V.x)
      W'.V.x v = min (W.L.length l) p ∧ W'.V.xOld v = X.V.x v ∧
      W'.V.moveRemain v = if W.L.length l < p then W.cfg.fl (p - W.L.length l) else X.V.moveRemain v := by
  obtain ⟨W1, h1, rfl⟩ := tick_ok ht
  have hc := h.inv.core hf
  obtain ⟨A, B, C, D, E, F, hp, rfl, hC⟩ := step_turn hc h1
  have hL : LInv C := turn_inv hc (Nat.le_refl _) (fun a Z Z' _ hcZ hp hz => hz.prim hcZ hp)
    (LInv.reach h) hC
  have hst := (turn_core hc (Nat.le_refl _) hC).2
  obtain ⟨i, hi, a, b, c⟩ := hp.went hL (hp.c6.s.vehs_link l v hv)
  have e : ∀ x y, beyond C l x y = beyond W l x y := by
    intro x y
    unfold beyond jam
    rw [hst.cfg, hst.u, hst.deltaPerLane]
  rw [e, hst.length] at a c
  rw [hst.cfg] at c
  exact ⟨C, i, hC, hi, a, b, c⟩

/-- **C106.** Until it is the turn of the node at the end of its link, position and rest of a vehicle stay as they
are; so do all former positions. -/
theorem C106_kept (h : Reachable OK W) (hf : W.finalized = true) {n : ℕ} {X : World} (hX : turn W n = .ok X)
    {a : LinkId} (ha : a < W.nLinks) (hn : n ≤ W.L.endN a) {v : VehId} (hv : v ∈ W.L.vehs a) :
    v ∈ X.L.vehs a ∧ X.V.x v = W.V.x v ∧ X.V.moveRemain v = W.V.moveRemain v ∧ X.V.xOld = W.V.xOld := by
  have hc := h.inv.core hf
  have k := turn_kept hc (hc.s.ends_lt a ha).2 hn hX
  exact ⟨k.mem hv, (k.same v hv).1, (k.same v hv).2, k.old⟩

/-- **C106.** The vehicles that a node lets into a link `b` that does not end at it come from links that end at the
node, wait there, and are put where the rest of their last movement takes them, at most to the jam spacing behind
the former position of the vehicle as many places ahead as `b` has lanes. The rest is used up. Nothing happens to
the vehicles that were on `b` before. -/
theorem C106_entry (h : Reachable OK W) (hf : W.finalized = true) {n : ℕ} (hn : n < W.nNodes) {X Y : World}
    (hX : turn W n = .ok X) (hY : turn W (n + 1) = .ok Y) {b : LinkId} (hb : b < W.nLinks)
    (hbn : W.L.endN b ≠ n) :
    ∃ es, Y.L.vehs b = X.L.vehs b ++ es ∧ Y.V.xOld = X.V.xOld ∧
      (∀ w ∈ X.L.vehs b, Y.V.x w = X.V.x w ∧ Y.V.moveRemain w = X.V.moveRemain w) ∧
      ∀ j v, es[j]? = some v → ∃ a, W.L.endN a = n ∧ v ∈ X.L.vehs a ∧ v ∈ X.N.incoming n ∧
        Y.V.x v = entryPos W a b (X.V.moveRemain v)
          ((ahead Y b ((X.L.vehs b).length + j)).map X.V.xOld) ∧ Y.V.moveRemain v = 0 := by
  obtain ⟨cX, sX⟩ := turn_core (h.inv.core hf) (Nat.le_of_lt hn) hX
  rw [turn_succ hX] at hY
  obtain ⟨-, hold, -, es, h1, h2, h3⟩ := transfer_enters (b := b) cX (by rw [sX.nNodes]; exact hn)
    (by rw [sX.nLinks]; exact hb) (by rw [sX.endN]; exact hbn) hY
  refine ⟨es, h1, hold, h2, fun j v hj => ?_⟩
  obtain ⟨a, p1, p2, p3, p4, p5⟩ := h3 j v hj
  rw [sX.endN] at p1
  rw [entryPos_static sX] at p4
  exact ⟨a, p1, p2, p3, p4, p5⟩

/-- **C106.** At the turn of a node vehicles leave the links at their ends, from the first on. Nothing happens to
those behind. -/
theorem C106_left (h : Reachable OK W) (hf : W.finalized = true) {n : ℕ} (hn : n < W.nNodes) {X Y : World}
    (hX : turn W n = .ok X) (hY : turn W (n + 1) = .ok Y) (a : LinkId) :
    ∃ k es, Y.L.vehs a = (X.L.vehs a).drop k ++ es ∧ ∀ w ∈ (X.L.vehs a).drop k,
      Y.V.x w = X.V.x w ∧ Y.V.moveRemain w = X.V.moveRemain w := by
  obtain ⟨cX, sX⟩ := turn_core (h.inv.core hf) (Nat.le_of_lt hn) hX
  rw [turn_succ hX] at hY
  exact (transfer_leaves (a := a) cX (by rw [sX.nNodes]; exact hn) hY).ex

/-- **C106.** Without rounding and with nobody ahead, a vehicle that crosses from `a` to `b` without reaching the
end of `b` has lost no time: the parts of the last time step on both links add up to it. -/
theorem C106_time (hfl : W.cfg.fl = id) {a b : LinkId} {x : ℚ} (ha : 0 < W.L.u a) (hb : 0 < W.L.u b)
    (hl : entryPos W a b (beyond W a x none - W.L.length a) none < W.L.length b) :
    (W.L.length a - x) / W.L.u a +
      entryPos W a b (beyond W a x none - W.L.length a) none / W.L.u b = W.cfg.deltat := by
  have hbe : beyond W a x none = x + W.L.u a * W.cfg.deltat := by simp only [beyond, hfl, id]
  have he : entryPos W a b (beyond W a x none - W.L.length a) none =
      (beyond W a x none - W.L.length a) * W.L.u b / W.L.u a := by
    simp only [entryPos, hfl, id] at hl ⊢
    rcases le_total (W.L.length b) ((beyond W a x none - W.L.length a) * W.L.u b / W.L.u a) with c | c
    · rw [min_eq_left c] at hl
      exact absurd hl (lt_irrefl _)
    · rw [min_eq_right c]
  rw [he, hbe]
  field_simp
  ring

/-! ## Concrete cases -/

/-- Two links in a row, the second slower; three vehicles. -/
def demoSlow (len : ℚ) (k : ℕ) : List Cmd :=
  [.node { name := "a" }, .node { name := "b" }, .node { name := "c" },
   .link { startN := .obj 0, endN := .obj 1, length := 250 },
   .link { startN := .obj 1, endN := .obj 2, length := len, u := 10 },
   .veh { orig := .obj 0, dest := some (.obj 2), dep := .step 0 },
   .veh { orig := .obj 0, dest := some (.obj 2), dep := .step 0 },
   .veh { orig := .obj 0, dest := some (.obj 2), dep := .step 0 },
   .fin (some 300)] ++ List.replicate k .tick

set_option maxRecDepth 100000 in
/-- A vehicle with a rest of 50 m from a link with a limit of 20 m/s enters one with a limit of 10 m/s at 25 m and
then moves by 50 m. The vehicle behind it gets to the end with a rest of 25 m. One step later it enters and is
stopped at 0 m by the former position of the first one. -/
theorem C106_case : ∃ W W', Reachable Any W ∧ W.finalized = true ∧ W.tick = .ok W' ∧
    W.L.vehs 0 = [0, 1, 2] ∧ W.V.x 0 = 250 ∧ W.V.moveRemain 0 = 50 ∧ beyond W 0 200 none = 300 ∧
    (∃ X, turn W 2 = .ok X ∧ X.L.vehs 0 = [1, 2] ∧ X.L.vehs 1 = [0] ∧ X.V.x 0 = 25 ∧
      entryPos W 0 1 50 none = 25 ∧ X.V.moveRemain 0 = 0) ∧
    W'.V.x 0 = 75 ∧ W'.V.x 1 = 250 ∧ W'.V.moveRemain 1 = 25 ∧
    (∃ X, turn W' 2 = .ok X ∧ X.L.vehs 1 = [0, 1] ∧ X.V.x 1 = 0 ∧ entryPos W' 0 1 25 (some 25) = 0) := by
  have h : obs (runCmds demoCfg (fun _ => 0) (demoSlow 200 4)) (fun W =>
      decide (W.finalized = true ∧ W.L.vehs 0 = [0, 1, 2] ∧ W.V.x 0 = 250 ∧ W.V.moveRemain 0 = 50 ∧
        beyond W 0 200 none = 300 ∧ entryPos W 0 1 50 none = 25) &&
      obs (turn W 2) (fun X => decide (X.L.vehs 0 = [1, 2] ∧ X.L.vehs 1 = [0] ∧ X.V.x 0 = 25 ∧
        X.V.moveRemain 0 = 0)) &&
      obs W.tick (fun W' => decide (W'.V.x 0 = 75 ∧ W'.V.x 1 = 250 ∧ W'.V.moveRemain 1 = 25 ∧
        entryPos W' 0 1 25 (some 25) = 0) &&
        obs (turn W' 2) (fun X => decide (X.L.vehs 1 = [0, 1] ∧ X.V.x 1 = 0)))) = true := by
    decide +kernel
  obtain ⟨W, hW, h⟩ := obs_ok h
  simp only [Bool.and_eq_true, decide_eq_true_eq] at h
  obtain ⟨⟨⟨a1, a2, a3, a4, a5, a6⟩, h2⟩, h3⟩ := h
  obtain ⟨X, hX, h2⟩ := obs_ok h2
  obtain ⟨W', hW', h3⟩ := obs_ok h3
  simp only [Bool.and_eq_true, decide_eq_true_eq] at h2 h3
  obtain ⟨⟨b1, b2, b3, b4⟩, h4⟩ := h3
  obtain ⟨Y, hY, h4⟩ := obs_ok h4
  simp only [decide_eq_true_eq] at h4
  exact ⟨W, W', runCmds_reachable hW, a1, hW', a2, a3, a4, a5,
    ⟨X, hX, h2.1, h2.2.1, h2.2.2.1, a6, h2.2.2.2⟩, b1, b2, b3, Y, hY, h4.1, h4.2, b4⟩

set_option maxRecDepth 100000 in
/-- **C106**, what does not hold: a vehicle does not use up its whole movement when the next link is shorter than
the rest. It stops at the end of that link, and what is left then is lost. -/
theorem C106_short_false : ¬ ∀ W : World, Reachable Any W → W.cfg.fl = id → 0 < W.cfg.deltat → ∀ a b : LinkId,
    0 < W.L.u a → 0 < W.L.u b → ∀ x, x ≤ W.L.length a → W.L.length a < beyond W a x none →
    (W.L.length a - x) / W.L.u a +
      entryPos W a b (beyond W a x none - W.L.length a) none / W.L.u b = W.cfg.deltat := by
  intro h
  have h1 : obs (runCmds demoCfg (fun _ => 0) (demoSlow 10 0)) (fun W => decide (
      0 < W.cfg.deltat ∧ 0 < W.L.u 0 ∧ 0 < W.L.u 1 ∧ 200 ≤ W.L.length 0 ∧
      W.L.length 0 < beyond W 0 200 none ∧ ¬ (W.L.length 0 - 200) / W.L.u 0 +
        entryPos W 0 1 (beyond W 0 200 none - W.L.length 0) none / W.L.u 1 = W.cfg.deltat)) = true := by
    decide +kernel
  obtain ⟨W, hW, h1⟩ := obs_ok h1
  obtain ⟨a1, a2, a3, a4, a5, a6⟩ := of_decide_eq_true h1
  have hr : Reachable (fun W => W.cfg = demoCfg) W ∧ W.cfg = demoCfg :=
    foldlM_inv (P := fun W => Reachable (fun W => W.cfg = demoCfg) W ∧ W.cfg = demoCfg)
      (fun _ _ _ _ hr hc => by
        have := ((Cmd.run_api hc).cfg hr.1.inv).trans hr.2
        exact ⟨.next hr.1 (Cmd.run_api hc) this, this⟩) ⟨.new rfl, rfl⟩ hW
  exact a6 (h W (runCmds_reachable hW) (by rw [hr.2]; rfl) a1 0 1 a2 a3 200 a4 a5)

/-- A red light in front of the vehicle for the first 40 seconds. -/
def demoRed (k : ℕ) : List Cmd :=
  [.node { name := "a" }, .node { name := "b", signal := [40, 100] }, .node { name := "c" },
   .link { startN := .obj 0, endN := .obj 1, length := 200, signalGroup := [1] },
   .link { startN := .obj 1, endN := .obj 2, length := 500 },
   .veh { orig := .obj 0, dest := some (.obj 2), dep := .step 0 },
   .fin (some 300)] ++ List.replicate k .tick

set_option maxRecDepth 100000 in
/-- **C106**, what does not hold: no vehicle gets further in a time step than the free-flow speed allows. A vehicle
that has been waiting at a red light has the movement of a whole time step left. When it may go it is put 100 m
ahead on the next link, and then moves by another 100 m in the same time step of 5 s, at a limit of 20 m/s. -/
theorem C106_twice_false : ∃ W W', Reachable Any W ∧ W.finalized = true ∧ W.tick = .ok W' ∧
    W.cfg.deltat = 5 ∧ W.L.u 0 = 20 ∧ W.L.u 1 = 20 ∧ W.L.vehs 0 = [0] ∧ W.V.x 0 = W.L.length 0 ∧
    W.V.xOld 0 = W.L.length 0 ∧ W.V.moveRemain 0 = 100 ∧ W'.L.vehs 1 = [0] ∧ W'.V.x 0 = 200 := by
  have h : obs (runCmds demoCfg (fun _ => 0) (demoRed 9)) (fun W =>
      decide (W.finalized = true ∧ W.cfg.deltat = 5 ∧ W.L.u 0 = 20 ∧ W.L.u 1 = 20 ∧ W.L.vehs 0 = [0] ∧
        W.V.x 0 = W.L.length 0 ∧ W.V.xOld 0 = W.L.length 0 ∧ W.V.moveRemain 0 = 100) &&
      obs W.tick (fun W' => decide (W'.L.vehs 1 = [0] ∧ W'.V.x 0 = 200))) = true := by
    decide +kernel
  obtain ⟨W, hW, h⟩ := obs_ok h
  simp only [Bool.and_eq_true, decide_eq_true_eq] at h
  obtain ⟨⟨a1, a2, a3, a4, a5, a6, a7, a8⟩, h2⟩ := h
  obtain ⟨W', hW', h2⟩ := obs_ok h2
  simp only [decide_eq_true_eq] at h2
  exact ⟨W, W', runCmds_reachable hW, a1, hW', a2, a3, a4, a5, a6, a7, a8, h2.1, h2.2⟩

end UX
