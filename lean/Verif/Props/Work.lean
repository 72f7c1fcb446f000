import Verif.Props.Demo
import Verif.Proofs.Work

/-!
# C107: no vehicle is held up without reason
-/

namespace UX
open World PySpec

variable {OK : World → Prop} {W W' : World}

/-- **C107.** A time step that does not raise goes through the turns of all nodes. -/
theorem C107_turns (h : Reachable OK W) (hf : W.finalized = true) (ht : W.tick = .ok W') :
    (∀ n, n ≤ W.nNodes → ∃ X, departTurn W n = .ok X) ∧ (∀ n, n ≤ W.nNodes → ∃ X, turn W n = .ok X) ∧
    turn W 0 = departTurn W W.nNodes := by
  obtain ⟨W1, h1, rfl⟩ := tick_ok ht
  obtain ⟨A, B, C, D, E, F, hp, rfl, hC⟩ := step_turn (h.inv.core hf) h1
  obtain ⟨X, hX⟩ := turn_le (Nat.zero_le _) hC
  rw [turn_zero] at hX
  exact ⟨fun n hn => departTurn_le hn hX, fun n hn => turn_le hn hC, turn_zero W⟩

/-- **C107.** A vehicle that waits first at the end of its link `a` to go on to `b` is transferred in this time
step, if the signal is green and `a` has outflow capacity left, unless as many vehicles as `b` has lanes are
transferred to `b`, or `b` has no room left when the node is done, or the capacity of the node is exhausted. -/
theorem C107_moves (h : Reachable OK W) (hf : W.finalized = true) {v : VehId} {a b : LinkId} (ha : a < W.nLinks)
    (hb : b < W.nLinks) (hv : FirstFor W v a b) (hab : W.L.endN b ≠ W.L.endN a) {X Y : World}
    (hX : turn W (W.L.endN a) = .ok X) (hY : turn W (W.L.endN a + 1) = .ok Y) (hl : MayLeave X a) :
    ∃ es, Y.L.vehs b = X.L.vehs b ++ es ∧ es.length ≤ W.L.lanes b ∧
      (v ∈ es ∨ es.length = W.L.lanes b ∨ ¬ HasRoom Y b ∨
        Y.N.flowCapRem (W.L.endN a) < W.cfg.deltan) := by
  have hc := h.inv.core hf
  have hn := (hc.s.ends_lt a ha).2
  obtain ⟨cX, sX⟩ := turn_core hc (Nat.le_of_lt hn) hX
  obtain ⟨cY, sY⟩ := turn_core hc hn hY
  rw [turn_succ hX] at hY
  have k := turn_kept hc hn (Nat.le_refl _) hX
  obtain ⟨w1, w2⟩ := turn_waits hc hn (Nat.le_refl _) hX
  obtain ⟨l1, l2⟩ := hl
  rw [sX.endN] at l2
  have hst : Stands (W.L.endN a) v a b X := by
    refine ⟨?_, by rw [w1]; exact hv.waits, by rw [w2]; exact hv.next, l2, l1⟩
    obtain ⟨es, he⟩ := k.vehs
    have := hv.first
    cases hw : W.L.vehs a with
    | nil => rw [hw] at this; cases this
    | cons u t =>
      rw [hw] at this he
      simp only [List.head?_cons, Option.some.injEq] at this
      subst this
      exact ⟨t ++ es, he⟩
  obtain ⟨es, h1, h2, h3⟩ := transfer_work cX (by rw [sX.nNodes]; exact hn) (by rw [sX.endN]; exact hab) hst hY
  rw [sX.lanes] at h2 h3
  refine ⟨es, h1, h2, ?_⟩
  rcases h3 with h3 | h3 | h3 | h3
  · exact .inl h3
  · exact .inr (.inl h3)
  · refine .inr (.inr (.inl fun hr => ?_))
    rw [← canEnter_iff (cY.s.lanes_pos b (by rw [sY.nLinks]; exact hb)), h3] at hr
    cases hr
  · refine .inr (.inr (.inr ?_))
    unfold World.dn at h3
    rw [sY.cfg] at h3
    exact h3

/-- **C107.** Of the vehicles that wait to depart at a node the first ones, in their order, are put on links
from it, as many as these links have lanes at most. Others are left only if that many have departed, or the link
chosen for the first of them has no room. -/
theorem C107_departs (h : Reachable OK W) (hf : W.finalized = true) {n : ℕ} (hn : n < W.nNodes) {X Y : World}
    (hX : departTurn W n = .ok X) (hY : departTurn W (n + 1) = .ok Y) :
    ∃ ds rest, X.N.genq n = ds ++ rest ∧ Y.N.genq n = rest ∧
      ds.length ≤ ((W.N.outlinks n).map W.L.lanes).sum ∧
      (∀ v ∈ ds, ∃ l ∈ W.N.outlinks n, v ∈ Y.L.vehs l) ∧
      (rest = [] ∨ ds.length = ((W.N.outlinks n).map W.L.lanes).sum ∨
        ∃ v t l, rest = v :: t ∧ l ∈ W.N.outlinks n ∧ ¬ HasRoom Y l) := by
  obtain ⟨ds, rest, a1, a2, a3, _, a5, a6⟩ := departs_work (h.inv.core hf) hn hX hY
  exact ⟨ds, rest, a1, a2, a3, a5, a6⟩

/-! ## Concrete cases -/

/-- A link of two lanes leads to a fork; vehicle 0 is to take one branch, the three behind it the other. -/
def demoFork (k : ℕ) : List Cmd :=
  [.node { name := "a" }, .node { name := "b" }, .node { name := "c" }, .node { name := "d" },
   .link { startN := .obj 0, endN := .obj 1, length := 200, lanes := 2 },
   .link { startN := .obj 1, endN := .obj 2, length := 200 },
   .link { startN := .obj 1, endN := .obj 3, length := 200 },
   .veh { orig := .obj 0, dest := some (.obj 3), dep := .step 0 },
   .veh { orig := .obj 0, dest := some (.obj 2), dep := .step 0 },
   .veh { orig := .obj 0, dest := some (.obj 2), dep := .step 0 },
   .veh { orig := .obj 0, dest := some (.obj 2), dep := .step 0 },
   .fin (some 300),
   .route 0 [.obj 0, .obj 2], .route 1 [.obj 0, .obj 1], .route 2 [.obj 0, .obj 1],
   .route 3 [.obj 0, .obj 1]] ++ List.replicate k .tick

set_option maxRecDepth 100000 in
/-- Vehicle 0 is first on its link, waits at its end and may leave: it is transferred. -/
theorem C107_case : ∃ W X Y, Reachable Any W ∧ W.finalized = true ∧ FirstFor W 0 0 2 ∧
    turn W 1 = .ok X ∧ turn W 2 = .ok Y ∧ MayLeave X 0 ∧ X.L.vehs 2 = [] ∧ Y.L.vehs 2 = [0] := by
  have h : obs (runCmds demoCfg (fun _ => 1) (demoFork 3)) (fun W =>
      decide (W.finalized = true ∧ (W.L.vehs 0).head? = some 0 ∧ 0 ∈ W.N.incoming (W.L.endN 0) ∧
        W.V.rnl 0 = .to 2) &&
      obs (turn W 1) (fun X => decide ((X.cfg.deltan : ℚ) ≤ X.L.capOutRem 0 ∧
        (X.N.signal (X.L.endN 0)).length ≤ 1 ∧ X.L.vehs 2 = [])) &&
      obs (turn W 2) (fun Y => decide (Y.L.vehs 2 = [0]))) = true := by
    decide +kernel
  obtain ⟨W, hW, h⟩ := obs_ok h
  simp only [Bool.and_eq_true, decide_eq_true_eq] at h
  obtain ⟨⟨⟨a1, a2, a3, a4⟩, h2⟩, h3⟩ := h
  obtain ⟨X, hX, h2⟩ := obs_ok h2
  obtain ⟨Y, hY, h3⟩ := obs_ok h3
  simp only [decide_eq_true_eq] at h2 h3
  exact ⟨W, X, Y, runCmds_reachable hW, a1, ⟨a2, a3, a4⟩, hX, hY, ⟨h2.1, .inr h2.2.1⟩, h2.2.2, h3⟩

set_option maxRecDepth 100000 in
/-- Two of the four waiting vehicles depart on the two lanes. -/
theorem C107_departs_case : ∃ W X Y, Reachable Any W ∧ W.finalized = true ∧ departTurn W 0 = .ok X ∧
    departTurn W 1 = .ok Y ∧ X.N.genq 0 = [0, 1, 2, 3] ∧ Y.N.genq 0 = [2, 3] ∧ Y.L.vehs 0 = [0, 1] := by
  have h : obs (runCmds demoCfg (fun _ => 1) (demoFork 1)) (fun W => decide (W.finalized = true) &&
      obs (departTurn W 0) (fun X => decide (X.N.genq 0 = [0, 1, 2, 3])) &&
      obs (departTurn W 1) (fun Y => decide (Y.N.genq 0 = [2, 3] ∧ Y.L.vehs 0 = [0, 1]))) = true := by
    decide +kernel
  obtain ⟨W, hW, h⟩ := obs_ok h
  simp only [Bool.and_eq_true, decide_eq_true_eq] at h
  obtain ⟨⟨a1, h2⟩, h3⟩ := h
  obtain ⟨X, hX, h2⟩ := obs_ok h2
  obtain ⟨Y, hY, h3⟩ := obs_ok h3
  simp only [decide_eq_true_eq] at h2 h3
  exact ⟨W, X, Y, runCmds_reachable hW, a1, hX, hY, h2, h3.1, h3.2⟩

set_option maxRecDepth 100000 in
/-- **C107**, what does not hold: that the vehicle is the first on its link matters. Vehicle 1, which waits next
to vehicle 0 and wants to go on to the empty link 1, stays where it is although vehicle 0 leaves; the one slot for
link 1 was served before that for link 2. -/
theorem C107_second_false : ¬ ∀ W X Y : World, Reachable Any W → W.finalized = true →
    ∀ (v : VehId) (a b : LinkId), v ∈ W.L.vehs a → v ∈ W.N.incoming (W.L.endN a) → W.V.rnl v = .to b →
    W.L.endN b ≠ W.L.endN a → turn W (W.L.endN a) = .ok X → turn W (W.L.endN a + 1) = .ok Y → MayLeave X a →
    (Y.L.vehs a).head? = some v →
    ¬ HasRoom Y b ∨ Y.N.flowCapRem (W.L.endN a) < W.cfg.deltan ∨ ¬ MayLeave Y a ∨
      Y.L.vehs b ≠ X.L.vehs b := by
  intro hall
  have h : obs (runCmds demoCfg (fun _ => 1) (demoFork 3)) (fun W =>
      decide (W.finalized = true ∧ 1 ∈ W.L.vehs 0 ∧ 1 ∈ W.N.incoming (W.L.endN 0) ∧
        W.V.rnl 1 = .to 1 ∧ W.L.endN 1 ≠ W.L.endN 0) &&
      obs (turn W (W.L.endN 0)) (fun X => decide ((X.cfg.deltan : ℚ) ≤ X.L.capOutRem 0 ∧
        (X.N.signal (X.L.endN 0)).length ≤ 1) &&
      obs (turn W (W.L.endN 0 + 1)) (fun Y => decide ((Y.L.vehs 0).head? = some 1 ∧
        ((Y.L.vehs 1).length < Y.L.lanes 1 ∧ (Y.cfg.deltan : ℚ) ≤ Y.L.capInRem 1) ∧
        ¬ Y.N.flowCapRem (W.L.endN 0) < W.cfg.deltan ∧ ((Y.cfg.deltan : ℚ) ≤ Y.L.capOutRem 0 ∧
        (Y.N.signal (Y.L.endN 0)).length ≤ 1) ∧ Y.L.vehs 1 = X.L.vehs 1)))) = true := by
    decide +kernel
  obtain ⟨W, hW, h⟩ := obs_ok h
  simp only [Bool.and_eq_true, decide_eq_true_eq] at h
  obtain ⟨⟨a1, a2, a3, a4, a5⟩, h2⟩ := h
  obtain ⟨X, hX, h2⟩ := obs_ok h2
  simp only [Bool.and_eq_true, decide_eq_true_eq] at h2
  obtain ⟨⟨b1, b2⟩, h3⟩ := h2
  obtain ⟨Y, hY, h3⟩ := obs_ok h3
  simp only [decide_eq_true_eq] at h3
  obtain ⟨c1, ⟨c2, c3⟩, c4, ⟨c5, c6⟩, c7⟩ := h3
  rcases hall W X Y (runCmds_reachable hW) a1 1 0 1 a2 a3 a4 a5 hX hY ⟨b1, .inr b2⟩ c1 with h | h | h | h
  · exact h ⟨.inl c2, c3⟩
  · exact c4 h
  · exact h ⟨c5, .inr c6⟩
  · exact h c7

end UX
