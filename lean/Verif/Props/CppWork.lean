import Mathlib.Data.List.TakeWhile
import Verif.Props.CppLanes
import Verif.Proofs.CppWorkTurn

/-!
# C104: no vehicle of the C++ engine is held up without reason
-/

namespace UX
open Cpp Cpp.Spec Cpp.CWorld

variable {W : CWorld}

/-- **C104.** The turns of the nodes make up the first part of every time step: each node lets vehicles depart
and then, node after node, vehicles are transferred. -/
theorem C104_turns (h : CReach W) {σ : Sched} (hσ : σ.Valid W) :
    region σ W.clearExc =
      σ.wait.foldl waitPass (σ.run.foldl runPass (σ.follow.foldl followPass (nodeTurn σ W W.g.nNodes))) ∧
    (∀ n, nodeTurn σ W (n + 1) = (nodeTurn σ W n).transfer n) ∧
    ∀ n, n < W.g.nNodes → ∃ ms, σ.gen = σ.gen.takeWhile (· ≠ n) ++ n :: ms ∧
      nodeTurn σ W 0 = ms.foldl nodeStage ((departTurn σ W n).nodeStage n) := by
  refine ⟨?_, fun n => nodeTurn_succ σ W n, fun n hn => ?_⟩
  · obtain ⟨r1, k1⟩ := h.rest.updates σ
    obtain ⟨r2, k2⟩ := Rest.foldl (fun W n r => Rest.nodeStage r n) σ.gen r1
    have e := (k1.trans k2).g
    unfold region
    simp only
    rw [e]
    rfl
  · have hm : n ∈ σ.gen := hσ.2.1.mem_iff.2 (List.mem_range.2 hn)
    have hd : ∃ ms, σ.gen.dropWhile (· ≠ n) = n :: ms := by
      cases hx : σ.gen.dropWhile (· ≠ n) with
      | nil =>
        have := List.dropWhile_eq_nil_iff.1 hx n hm
        simp at this
      | cons m ms =>
        have := List.head?_dropWhile_not (· ≠ n) σ.gen
        rw [hx] at this
        simp only [List.head?_cons, decide_not, Bool.not_eq_false', decide_eq_true_eq] at this
        exact ⟨ms, by rw [this]⟩
    obtain ⟨ms, hms⟩ := hd
    have e : σ.gen = σ.gen.takeWhile (· ≠ n) ++ n :: ms := by
      rw [← hms]; exact List.takeWhile_append_dropWhile.symm
    refine ⟨ms, e, ?_⟩
    unfold nodeTurn departTurn
    conv_lhs => rw [e]
    rw [List.foldl_append]
    rfl

/-- **C104.** A vehicle that has arrived first at the end of its link `a` and wants to go on to `b` is
transferred in this time step, if the signal is green and `a` has outflow capacity left, unless as many
vehicles as `b` has lanes are transferred to `b`, or `b` has no room left when the node is done, or the
capacity of the node is exhausted. -/
theorem C104_moves (h : CReach W) (σ : Sched) {v a b : ℕ} (hv : FirstFor W v a b)
    (hb : (W.link b).dst ≠ (W.link a).dst) (hl : MayLeave (nodeTurn σ W (W.link a).dst) a) :
    ∃ es, ((nodeTurn σ W ((W.link a).dst + 1)).link b).vehs =
        ((nodeTurn σ W (W.link a).dst).link b).vehs ++ es ∧
      es.length ≤ (W.link b).lanes ∧
      (v ∈ es ∨ es.length = (W.link b).lanes ∨ ¬ HasRoom (nodeTurn σ W ((W.link a).dst + 1)) b ∨
        ((nodeTurn σ W ((W.link a).dst + 1)).node (W.link a).dst).flowRem < W.g.deltaN) := by
  obtain ⟨r, k⟩ := h.rest.nodeTurn σ (W.link a).dst
  have hd : ∀ c, ((nodeTurn σ W (W.link a).dst).link c).dst = (W.link c).dst := fun c =>
    (congrArg CLink.dst (k.link c) : _)
  have hla : ((nodeTurn σ W (W.link a).dst).link b).lanes = (W.link b).lanes :=
    (congrArg CLink.lanes (k.link b) : _)
  have hni : b ∉ ((nodeTurn σ W (W.link a).dst).node (W.link a).dst).inLinks := fun hm =>
    hb ((hd b).symm.trans ((r.inv.inL _ b).1 hm).2)
  have hf := (nodeTurn_seen h.rest σ hv.on (Nat.le_refl _)).firstFor (by rw [k.g]) hv
  obtain ⟨es, h1, h2, _, h3⟩ := transfer_work r hni
  have h4 := h3 v a hf (hd a) hl
  rw [← nodeTurn_succ] at h1 h4
  rw [hla] at h2 h4
  rw [k.g] at h4
  exact ⟨es, h1.vehs, h2, h4⟩

/-- **C104.** Of the vehicles that wait to depart at a node the first ones, in their order, are put on links
from it, as many as these links have lanes at most. Others are left only if that many have departed, or the
first of them has no room on the link it has chosen, or there is no link, or the choice throws an exception. -/
theorem C104_departs (h : CReach W) (σ : Sched) (n : ℕ) :
    ∃ ds rest, ((departTurn σ W n).node n).genQ = ds ++ rest ∧
      (((departTurn σ W n).nodeStage n).node n).genQ = rest ∧
      ds.length ≤ ((W.node n).outLinks.map (fun l => (W.link l).lanes)).sum ∧
      (∀ v ∈ ds, ∃ l ∈ (W.node n).outLinks, v ∈ (((departTurn σ W n).nodeStage n).link l).vehs) ∧
      (rest = [] ∨ (W.node n).outLinks = [] ∨
        ds.length = ((W.node n).outLinks.map (fun l => (W.link l).lanes)).sum ∨
        (((departTurn σ W n).nodeStage n).node n).exc ≠ none ∨
        ∃ v t l, rest = v :: t ∧ (((departTurn σ W n).nodeStage n).veh v).next = some l ∧
          l ∈ (W.node n).outLinks ∧ ¬ HasRoom ((departTurn σ W n).nodeStage n) l) := by
  obtain ⟨r, k⟩ := h.rest.departTurn σ n
  have ho : ((departTurn σ W n).node n).outLinks = (W.node n).outLinks := k.outLinks n
  have hla : (fun l => ((departTurn σ W n).link l).lanes) = fun l => (W.link l).lanes :=
    funext fun l => (congrArg CLink.lanes (k.link l) : _)
  have := nodeStage_work r n
  rw [ho, hla] at this
  exact this

/-! ## Concrete cases -/

namespace Cpp

/-- A link of two lanes leads to a fork; vehicle 0 is to take one branch, the three behind it the other. -/
def cppFork0 : CWorld :=
  let W0 := CWorld.empty id 200 5 1 10 (1/2) 0 false false false false true 1
  let W1 := (((W0.addNodeWith (0, 0) [0] 0 (-1) 0 (fun _ => 0)).addNodeWith (0, 0) [0] 0 (-1) 0
    (fun _ => 0)).addNodeWith (0, 0) [0] 0 (-1) 0 (fun _ => 0)).addNodeWith (0, 0) [0] 0 (-1) 0 (fun _ => 0)
  let W2 := ((W1.addLink 0 1 (cppTwoArgs 2)).addLink 1 2 (cppTwoArgs 1)).addLink 1 3 (cppTwoArgs 1)
  ((((W2.addVehicle 0 0 3 [2]).addVehicle 0 0 2 [1]).addVehicle 0 0 2 [1]).addVehicle 0 0 2 [1]).initAdj

def cppFork (k : ℕ) : CWorld := (cppFork0.mainLoop (fun _ W => W.seqSched) k).1

theorem cppFork0_clean : CleanReach cppFork0 := by
  refine CleanReach.step ?_ (CleanStep.init _)
  refine CleanReach.step ?_ (CleanStep.vehicle _ 0 0 2 [1] (by decide) (by decide))
  refine CleanReach.step ?_ (CleanStep.vehicle _ 0 0 2 [1] (by decide) (by decide))
  refine CleanReach.step ?_ (CleanStep.vehicle _ 0 0 2 [1] (by decide) (by decide))
  refine CleanReach.step ?_ (CleanStep.vehicle _ 0 0 3 [2] (by decide) (by decide))
  refine CleanReach.step ?_ (CleanStep.link _ 1 3 (cppTwoArgs 1) (by decide) (by decide) (by decide) (by decide))
  refine CleanReach.step ?_ (CleanStep.link _ 1 2 (cppTwoArgs 1) (by decide) (by decide) (by decide) (by decide))
  refine CleanReach.step ?_ (CleanStep.link _ 0 1 (cppTwoArgs 2) (by decide) (by decide) (by decide) (by decide))
  refine CleanReach.step ?_ (CleanStep.node _ _ [0] 0 (-1) 0 (fun _ => 0) 1 rfl)
  refine CleanReach.step ?_ (CleanStep.node _ _ [0] 0 (-1) 0 (fun _ => 0) 1 rfl)
  refine CleanReach.step ?_ (CleanStep.node _ _ [0] 0 (-1) 0 (fun _ => 0) 1 rfl)
  refine CleanReach.step ?_ (CleanStep.node _ _ [0] 0 (-1) 0 (fun _ => 0) 1 rfl)
  exact CleanReach.empty id 200 5 1 10 (1/2) 0 false false false false true 1

theorem cppFork_reach {k : ℕ} (h : (cppFork0.mainLoop (fun _ W => W.seqSched) k).2 = none) : CReach (cppFork k) :=
  (CleanReach.step cppFork0_clean (CleanStep.run _ _ _ _ seqSched_valid (Prod.ext rfl h))).toReach

end Cpp

/-- Vehicle 0 is first on its link, has arrived and may leave: it is transferred. Two steps later vehicles 2
and 3 have arrived side by side and one of them is transferred, as the link beyond has one lane. At the start
the first two of four waiting vehicles depart on the two lanes. -/
theorem C104_case : CReach (cppFork 4) ∧ FirstFor (cppFork 4) 0 0 2 ∧
    MayLeave (nodeTurn (cppFork 4).seqSched (cppFork 4) 1) 0 ∧
    ((nodeTurn (cppFork 4).seqSched (cppFork 4) 2).link 2).vehs = [0] ∧
    FirstFor (cppFork 6) 2 0 1 ∧ 3 ∈ ((cppFork 6).link 0).arrived ∧
    ((nodeTurn (cppFork 6).seqSched (cppFork 6) 2).link 1).vehs = [1, 2] ∧
    ((departTurn (cppFork 1).seqSched (cppFork 1) 0).node 0).genQ = [0, 1, 2, 3] ∧
    (((departTurn (cppFork 1).seqSched (cppFork 1) 0).nodeStage 0).node 0).genQ = [2, 3] := by
  refine ⟨cppFork_reach ?_, ⟨?_, ?_, ?_, ?_⟩, ⟨?_, Or.inr ?_⟩, ?_, ⟨?_, ?_, ?_, ?_⟩, ?_, ?_, ?_, ?_⟩ <;>
    decide +kernel

/-- That the vehicle is the first on its link matters: vehicle 1, which has arrived next to vehicle 0 and
wants to go on to the empty link 1, stays where it is although vehicle 0 leaves; the one slot for link 1 was
served before that for link 2. -/
theorem C104_second_false : ¬ ∀ (W : CWorld), CReach W → ∀ v a b, v ∈ (W.link a).vehs → v ∈ (W.link a).arrived →
    (W.veh v).next = some b → (W.link b).dst ≠ (W.link a).dst →
    MayLeave (nodeTurn W.seqSched W (W.link a).dst) a →
    ((nodeTurn W.seqSched W ((W.link a).dst + 1)).link a).vehs.head? = some v →
    ¬ HasRoom (nodeTurn W.seqSched W ((W.link a).dst + 1)) b ∨
      ((nodeTurn W.seqSched W ((W.link a).dst + 1)).node (W.link a).dst).flowRem < W.g.deltaN ∨
      ¬ MayLeave (nodeTurn W.seqSched W ((W.link a).dst + 1)) a ∨
      ((nodeTurn W.seqSched W ((W.link a).dst + 1)).link b).vehs ≠
        ((nodeTurn W.seqSched W (W.link a).dst).link b).vehs := by
  intro h
  have := h (cppFork 4) (cppFork_reach (by decide +kernel)) 1 0 1 (by decide +kernel) (by decide +kernel)
    (by decide +kernel) (by decide +kernel) ⟨by decide +kernel, Or.inr (by decide +kernel)⟩ (by decide +kernel)
  rcases this with h | h | h | h
  · exact h (hasRoom_iff.1 (by decide +kernel))
  · revert h; decide +kernel
  · exact h ⟨by decide +kernel, Or.inr (by decide +kernel)⟩
  · revert h; decide +kernel

end UX
