import Verif.Proofs.CppCalm
import Verif.Props.CppRows

/-!
# C92: vehicles of the C++ engine with an enforced route
-/

namespace UX
open Cpp Cpp.Spec Cpp.CWorld

variable {W : CWorld} {v : ℕ}

/-- **C92.** A vehicle on the road whose route was given before departure is on the link of the route whose
number is the number of links entered before. -/
theorem C92_on (h : Planned v W) (hr : (W.veh v).route ≠ []) (hs : (W.veh v).state = .run) :
    ∃ l k, (W.veh v).link = some l ∧ (W.veh v).count = k + 1 ∧ (W.veh v).route[k]? = some l :=
  h.fol.on hr hs

/-- **C92.** The enter log is the beginning of the route, as long as the vehicle has got. -/
theorem C92_log (h : Planned v W) (hc : CleanReach W) (hl : W.g.logMode = true) (hid : W.g.fl = id)
    (hdt : 0 < W.g.deltaT) (hn : NoLoops W) (hv : v < W.g.nVehs) (hr : (W.veh v).route ≠ []) :
    (W.enterLog v).map Prod.fst = (W.veh v).route.take (W.veh v).count ∧
      (W.veh v).count ≤ (W.veh v).route.length := by
  have f := h.fol
  have hlen := (C91_entries hc hl hid hdt hn hv).1
  have ht : (W.enterLog v).map Prod.fst = (W.veh v).trace := enterScan_names _ _ _ _
  refine ⟨?_, f.len hr⟩
  rw [ht]
  refine (f.sub hr).eq_of_length ?_
  rw [← ht, List.length_map, hlen, List.length_take, min_eq_left (f.len hr)]

/-- **C92.** A trip that ended at the destination, on a route that reaches the destination with its last link
only, used exactly the route. -/
theorem C92_complete (h : Planned v W) (hc : CleanReach W) (hl : W.g.logMode = true) (hid : W.g.fl = id)
    (hdt : 0 < W.g.deltaT) (hn : NoLoops W) (hv : v < W.g.nVehs) (hr : (W.veh v).route ≠ [])
    (hs : (W.veh v).state = .ended)
    (ho : ∀ l ∈ (W.veh v).route.dropLast, (W.link l).dst ≠ (W.veh v).dest) :
    (W.enterLog v).map Prod.fst = (W.veh v).route := by
  obtain ⟨l, k, p1, p2, p3, p4⟩ := h.done hs hr
  have h1 := (C92_log h hc hl hid hdt hn hv hr).1
  rw [h1, p1]
  have hk := lt_of_getElem? p2
  refine List.take_of_length_le ?_
  by_contra hlt
  refine ho l ?_ p4
  have hk' : k < (W.veh v).route.dropLast.length := by rw [List.length_dropLast]; omega
  have : (W.veh v).route.dropLast[k] = l := by
    rw [List.getElem_dropLast]
    rw [List.getElem?_eq_getElem hk] at p2
    exact Option.some.inj p2
  rw [← this]
  exact List.getElem_mem hk'

/-- **C92.** A run does not throw if every vehicle is free to choose its way or was given, before departure,
a way from its origin to its destination. -/
theorem C92_safe (h : CReach W)
    (hp : ∀ v, v < W.g.nVehs → Unplanned W v ∨ (Planned v W ∧ GoodPlan W v))
    {sched : ℕ → CWorld → Sched} (hs : ∀ t V, (sched t V).Valid V) (endTs : ℕ) :
    (W.mainLoop sched endTs).2 = none := by
  refine main_calm h.rest (fun t V _ => (hs t V).2.2.2.1.nodup_iff.2 List.nodup_range) endTs (fun v hv => ?_)
  rcases hp v hv with h | ⟨h, g⟩
  · exact Or.inl h.unstuck
  · exact Or.inr ⟨g, h.fol⟩

/-! ## Concrete case -/

namespace Cpp

/-- A detour of two links (0, 1) and a direct link (2). Vehicle 0 is given the detour. -/
def cppPlan0 : CWorld :=
  let W0 := CWorld.empty id 200 5 1 10 (1/2) 0 true false false false true 1
  let W1 := (((W0.addNodeWith (0, 0) [0] 0 (-1) 0 (fun _ => 0)).addNodeWith (0, 0) [0] 0 (-1) 0
    (fun _ => 0))).addNodeWith (0, 0) [0] 0 (-1) 0 (fun _ => 0)
  let W2 := ((W1.addLink 0 1 cppRowArgs).addLink 1 2 cppRowArgs).addLink 0 2 cppRowArgs
  (((W2.addVehicle 0 0 2 []).addVehicle 0 0 2 []).initAdj).edit (.enforce 0 [0, 1])

def cppPlan (k : ℕ) : CWorld := (cppPlan0.mainLoop (fun _ W => W.seqSched) k).1

theorem cppPlan0_clean : CleanReach cppPlan0 := by
  refine CleanReach.step ?_ (CleanStep.edit _ (.enforce 0 [0, 1]))
  refine CleanReach.step ?_ (CleanStep.init _)
  refine CleanReach.step ?_ (CleanStep.vehicle _ 0 0 2 [] (by decide) (by decide))
  refine CleanReach.step ?_ (CleanStep.vehicle _ 0 0 2 [] (by decide) (by decide))
  refine CleanReach.step ?_ (CleanStep.link _ 0 2 cppRowArgs (by decide) (by decide) (by decide) (by decide))
  refine CleanReach.step ?_ (CleanStep.link _ 1 2 cppRowArgs (by decide) (by decide) (by decide) (by decide))
  refine CleanReach.step ?_ (CleanStep.link _ 0 1 cppRowArgs (by decide) (by decide) (by decide) (by decide))
  refine CleanReach.step ?_ (CleanStep.node _ _ [0] 0 (-1) 0 (fun _ => 0) 1 rfl)
  refine CleanReach.step ?_ (CleanStep.node _ _ [0] 0 (-1) 0 (fun _ => 0) 1 rfl)
  refine CleanReach.step ?_ (CleanStep.node _ _ [0] 0 (-1) 0 (fun _ => 0) 1 rfl)
  exact CleanReach.empty id 200 5 1 10 (1/2) 0 true false false false true 1

theorem addVehicle_home {W : CWorld} {v : ℕ} (dep : ℚ) (o d : ℕ) (p : List ℕ) (h : (W.veh v).state = .home) :
    ((W.addVehicle dep o d p).veh v).state = .home := by
  show ((upd W.veh W.g.nVehs (newVeh dep o d p)) v).state = _
  unfold upd; split
  · rfl
  · exact h

theorem cppPlan0_planned (v : ℕ) : Planned v cppPlan0 := by
  refine Planned.step ?_ (CStep.edit _ (.enforce 0 [0, 1])) (Or.inr (Or.inl ?_))
  · refine Planned.step ?_ (CStep.init _) (Or.inl rfl)
    refine Planned.step ?_ (CStep.vehicle _ 0 0 2 [] (by decide) (by decide)) (Or.inr (Or.inl ?_))
    · refine Planned.step ?_ (CStep.vehicle _ 0 0 2 [] (by decide) (by decide)) (Or.inr (Or.inl rfl))
      refine Planned.step ?_ (CStep.link _ 0 2 cppRowArgs (by decide) (by decide) (by decide) (by decide)) (Or.inl rfl)
      refine Planned.step ?_ (CStep.link _ 1 2 cppRowArgs (by decide) (by decide) (by decide) (by decide)) (Or.inl rfl)
      refine Planned.step ?_ (CStep.link _ 0 1 cppRowArgs (by decide) (by decide) (by decide) (by decide)) (Or.inl rfl)
      refine Planned.step ?_ (CStep.node _ _ [0] 0 (-1) 0 (fun _ => 0) 1 rfl) (Or.inl rfl)
      refine Planned.step ?_ (CStep.node _ _ [0] 0 (-1) 0 (fun _ => 0) 1 rfl) (Or.inl rfl)
      refine Planned.step ?_ (CStep.node _ _ [0] 0 (-1) 0 (fun _ => 0) 1 rfl) (Or.inl rfl)
      exact Planned.empty id 200 5 1 10 (1/2) 0 true false false false true 1
    · exact addVehicle_home _ _ _ _ rfl
  · exact addVehicle_home _ _ _ _ (addVehicle_home _ _ _ _ rfl)

theorem cppPlan_run {k : ℕ} (h : (cppPlan0.mainLoop (fun _ W => W.seqSched) k).2 = none) :
    cppPlan0.mainLoop (fun _ W => W.seqSched) k = (cppPlan k, none) := Prod.ext rfl h

theorem cppPlan_clean {k : ℕ} (h : (cppPlan0.mainLoop (fun _ W => W.seqSched) k).2 = none) :
    CleanReach (cppPlan k) :=
  CleanReach.step cppPlan0_clean (CleanStep.run _ _ _ _ seqSched_valid (cppPlan_run h))

theorem cppPlan_planned (k v : ℕ) : Planned v (cppPlan k) := by
  refine Planned.step (cppPlan0_planned v) (CStep.run cppPlan0 k _ seqSched_valid) (Or.inl ?_)
  have := (mainLoop_evs cppPlan0_clean.toReach.rest
    (fun t V _ => (seqSched_valid t V).2.2.2.1.nodup_iff.2 List.nodup_range) k).par.veh v
  exact (congrArg CVeh.route this : ((cppPlan k).veh v).par.route = (cppPlan0.veh v).par.route)

end Cpp

/-- Vehicle 0 takes the detour, vehicle 1 the direct link; nothing is thrown. -/
theorem C92_case : CleanReach (cppPlan 8) ∧ Planned 0 (cppPlan 8) ∧ GoodPlan cppPlan0 0 ∧ Unplanned cppPlan0 1 ∧
    cppPlan0.g.nVehs = 2 ∧ (cppPlan0.mainLoop (fun _ W => W.seqSched) 8).2 = none ∧
    ((cppPlan 8).veh 0).state = .ended ∧ ((cppPlan 8).enterLog 0).map Prod.fst = [0, 1] ∧
    ((cppPlan 8).enterLog 1).map Prod.fst = [2] ∧ ((cppPlan 4).enterLog 0).map Prod.fst = [0] ∧
    ((cppPlan 4).veh 0).count = 1 := by
  refine ⟨cppPlan_clean (by decide +kernel), cppPlan_planned 8 0, ?_, ⟨by decide +kernel, by decide +kernel⟩,
    by decide +kernel, by decide +kernel, by decide +kernel, by decide +kernel, by decide +kernel,
    by decide +kernel, by decide +kernel⟩
  refine ⟨⟨?_, ?_, ?_⟩, 1, by decide +kernel, by decide +kernel⟩
  · intro l hl
    have : l = 0 := by
      have h2 : (cppPlan0.veh 0).route.head? = some 0 := by decide +kernel
      rw [h2] at hl; exact (Option.some.inj hl).symm
    subst this
    decide +kernel
  · have : (cppPlan0.veh 0).route = [0, 1] := by decide +kernel
    rw [this]
    simp only [List.isChain_cons_cons, List.isChain_singleton, and_true]
    decide +kernel
  · intro l hl
    have h2 : (cppPlan0.veh 0).route = [0, 1] := by decide +kernel
    rw [h2] at hl
    simp at hl
    rcases hl with rfl | rfl <;> decide +kernel

/-- **C92, negated.** A route given during the trip is not followed from the place where the vehicle is: the
links entered before are counted, so a way from the end of the present link to the destination makes the
simulation throw. -/
theorem C92_false : ¬ ∀ (W : CWorld) (v l : ℕ) (r : List ℕ), CleanReach W → v < W.g.nVehs →
    (∀ w, w < W.g.nVehs → Unplanned W w ∨ (Planned w W ∧ GoodPlan W w)) →
    (W.veh v).link = some l → r ≠ [] → Way W (W.link l).dst r →
    (∃ m, r.getLast? = some m ∧ (W.link m).dst = (W.veh v).dest) →
    ((W.edit (.enforce v r)).mainLoop (fun _ W => W.seqSched) 20).2 = none := by
  intro h
  have hg : GoodPlan (cppPlan 2) 0 ∧ Unplanned (cppPlan 2) 1 := by
    have e := mainLoop_evs cppPlan0_clean.toReach.rest
      (fun t V _ => (seqSched_valid t V).2.2.2.1.nodup_iff.2 List.nodup_range) 2
    have h2 : ((cppPlan 2).veh 0).route = [0, 1] := by decide +kernel
    refine ⟨⟨⟨?_, ?_, ?_⟩, 1, by decide +kernel, by decide +kernel⟩, by decide +kernel, by decide +kernel⟩
    · intro l hl
      rw [h2] at hl
      have : l = 0 := by simpa using hl.symm
      subst this
      decide +kernel
    · rw [h2]
      simp only [List.isChain_cons_cons, List.isChain_singleton, and_true]
      decide +kernel
    · intro l hl
      rw [h2] at hl
      simp at hl
      rcases hl with rfl | rfl <;> decide +kernel
  have := h (cppPlan 2) 0 0 [1] (cppPlan_clean (by decide +kernel)) (by decide +kernel) (fun w hw => by
      have hn : (cppPlan 2).g.nVehs = 2 := by decide +kernel
      rw [hn] at hw
      have : w = 0 ∨ w = 1 := by omega
      rcases this with rfl | rfl
      · exact Or.inr ⟨cppPlan_planned 2 0, hg.1⟩
      · exact Or.inl hg.2) (by decide +kernel) (by simp)
    ⟨fun l hl => by
      have : l = 1 := by simpa using hl.symm
      subst this; decide +kernel, by simp, fun l hl => by
      have : l = 1 := by simpa using hl
      subst this; decide +kernel⟩ ⟨1, rfl, by decide +kernel⟩
  revert this
  decide +kernel

end UX
