import Verif.Props.CppExample
import Verif.Proofs.CppThreads
import Verif.Spec.CppThreads

/-!
# C80: results of the C++ engine do not depend on the number of threads
-/

namespace UX
open Cpp Cpp.Spec Cpp.CWorld

/-- **C80.** Whatever the order in which the iterations of the five parallel loops of each time step
take effect, `main_loop` produces the same world and the same exception. -/
theorem C80_order {W : CWorld} (h : CReach W) {s1 s2 : ℕ → CWorld → Sched}
    (h1 : ∀ t V, (s1 t V).Valid V) (h2 : ∀ t V, (s2 t V).Valid V) (endTs : ℕ) :
    W.mainLoop s1 endTs = W.mainLoop s2 endTs :=
  mainLoop_order h.rest h1 h2 endTs

/-- The region of the proofs that belongs to a set of objects. -/
def Cpp.Spec.Objects.reg (R : Objects) : Reg := ⟨R.node, R.link, R.veh⟩

theorem Cpp.Foot.confined {R : Objects} {f : CWorld → CWorld} {W : CWorld} (h : Foot R.reg f W)
    (k : Keep W (f W)) : Confined R f W := by
  refine ⟨k.g, fun n hn => h.node k hn, fun l hl => h.link k hl, fun v hv => h.veh hv, ?_⟩
  rintro X ⟨h1, h2, h3, h4, h5, h6⟩
  have e : X = merge R.reg W X := by
    refine ext' h1 (fun n => ?_) (fun l => ?_) (fun v => ?_)
    · simp only [merge]
      split
      · rename_i hn; exact h4 n hn
      · rw [← h2 n]
    · simp only [merge]
      split
      · rename_i hl; exact h5 l hl
      · rw [← h3 l]
    · simp only [merge]
      split
      · rename_i hv; exact h6 v hv
      · rfl
  have e' : f X = merge R.reg (f W) X := by
    conv_lhs => rw [e]
    exact h X
  rw [e']
  exact ⟨rfl, fun n => merge_outLinks _ _ _ n, fun l => merge_dst _ _ _ l,
    fun n hn => merge_node (R := R.reg) hn _ _, fun l hl => merge_link (R := R.reg) hl _ _,
    fun v hv => merge_veh (R := R.reg) hv _ _⟩

theorem Cpp.Reg.Disj.apart {A B : Objects} (d : A.reg.Disj B.reg) : Apart A B :=
  ⟨fun k h => d.n k h.1 h.2, fun k h => d.l k h.1 h.2, fun k h => d.v k h.1 h.2⟩

theorem Cpp.Spec.During.rest {W : CWorld} (h : During W) : Rest W := by
  induction h with
  | start h => exact h.rest
  | clear _ r => exact r.congr (core_clearExc _).symm
  | linkUpdate l _ r => exact (r.linkUpdate l).1
  | nodeStage n _ r => exact (r.nodeStage n).1
  | transfer n _ r =>
    obtain ⟨a, _, c, _⟩ := r.inv.transfer (n := n) r.inc
    exact ⟨a, c⟩
  | followPass l _ r => exact (r.followPass l).1
  | runPass l _ hc r =>
    obtain ⟨a, _, c, _⟩ := r.inv.runPass (l := l) r.inc hc
    exact ⟨a, c⟩
  | waitPass n _ r => exact (r.waitPass n).1
  | home v _ hv hs r =>
    exact (r.homePass [v] (by simp) (fun w hw => by rw [List.mem_singleton.1 hw]; exact ⟨hv, hs⟩)).1
  | reconcile _ r => exact r.reconcile
  | routeStep _ r => exact r.routeStep
  | tick _ r => exact r.setG _ rfl rfl rfl rfl rfl

/-- **C80.** At any moment of a run the iterations of each parallel loop work on separate objects, and
each reads and writes its own objects only (besides reading globals and the network): no data race
between iterations. -/
theorem C80_apart {W : CWorld} (h : During W) {a b : ℕ} (hab : a ≠ b) :
    Apart (linkObjects W a) (linkObjects W b) ∧ Apart (nodeObjects W a) (nodeObjects W b) ∧
      Apart (queueObjects W a) (queueObjects W b) :=
  ⟨Reg.Disj.apart (linkReg_disj h.rest.inv hab), Reg.Disj.apart (genReg_disj h.rest.inv hab),
    Reg.Disj.apart (waitReg_disj h.rest.inv hab)⟩

theorem C80_linkUpdate {W : CWorld} (h : During W) (l : ℕ) :
    Confined (linkObjects W l) (fun W => W.linkUpdate l) W :=
  Foot.confined (foot_linkUpdate (R := linkReg W l) rfl (fun _ h => h)) (h.rest.linkUpdate l).2

theorem C80_nodeStage {W : CWorld} (h : During W) (n : ℕ) :
    Confined (nodeObjects W n) (fun W => W.nodeStage n) W :=
  Foot.confined (foot_nodeStage (R := genReg W n) rfl (genOK_genReg W n)) (h.rest.nodeStage n).2

theorem C80_followPass {W : CWorld} (h : During W) (l : ℕ) :
    Confined (linkObjects W l) (fun W => W.followPass l) W :=
  Foot.confined (foot_followPass (R := linkReg W l) rfl (fun _ h => h) h.rest.inv) (h.rest.followPass l).2

/-- The RUN pass starts after `transfer` has emptied the arrival buffers. -/
theorem C80_runPass {W : CWorld} (h : During W) (l : ℕ) (hc : (W.link l).arrived = []) :
    Confined (linkObjects W l) (fun W => W.runPass l) W :=
  Foot.confined (foot_runPass (R := linkReg W l) (runOK_linkReg h.rest.inv l) (fun _ h => h))
    (h.rest.inv.runPass (l := l) h.rest.inc hc).2.1

theorem C80_waitPass {W : CWorld} (h : During W) (n : ℕ) :
    Confined (queueObjects W n) (fun W => W.waitPass n) W :=
  Foot.confined (foot_waitPass (R := waitReg W n) rfl (fun _ h => h) h.rest.inv) (h.rest.waitPass n).2

/-- The order in which the last entity comes first is another valid schedule. -/
def Cpp.revSched (W : CWorld) : Sched :=
  { update := (List.range W.g.nLinks).reverse, gen := (List.range W.g.nNodes).reverse
    follow := (List.range W.g.nLinks).reverse, run := (List.range W.g.nLinks).reverse
    wait := (List.range W.g.nNodes).reverse }

theorem Cpp.revSched_valid (t : ℕ) (V : CWorld) :
    ((fun (_ : ℕ) (W : CWorld) => revSched W) t V).Valid V :=
  ⟨List.reverse_perm _, List.reverse_perm _, List.reverse_perm _, List.reverse_perm _, List.reverse_perm _⟩

example : (cppEx0.mainLoop (fun _ W => revSched W) 8).1 = cppEx 8 := by
  unfold cppEx
  rw [C80_order cppEx0_reach revSched_valid seqSched_valid]

example : ((cppEx 8).link 1).vehs = [1, 2] ∧ ((cppEx 8).link 0).vehs = [3] := by decide +kernel

end UX
