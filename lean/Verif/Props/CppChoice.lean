import Verif.Proofs.CppChoiceReach
import Verif.Props.CppPlan

/-!
# C101: the choice of the next link in the C++ engine
-/

namespace UX
open Cpp Cpp.Spec Cpp.CWorld

variable {W : CWorld} {v : ℕ}

/-- **C101.** Every link in the enter log of a vehicle without a specified route, whose preferred and avoided
links were given before departure, was open to it: not one to avoid, a preferred one where there is one, and
with `no_cyclic_routing` one to a node not passed before, if there was one among the open links. -/
theorem C101_walk (h : Steered v W) (hc : CleanReach W) (hl : W.g.logMode = true) (hid : W.g.fl = id)
    (hdt : 0 < W.g.deltaT) (hn : NoLoops W) (hv : v < W.g.nVehs) (hr : (W.veh v).route = []) {k b : ℕ}
    (hb : ((W.enterLog v).map Prod.fst)[k]? = some b) :
    Fair W v (((W.enterLog v).map Prod.fst).take k) b := by
  obtain ⟨P, p⟩ := h.walk
  have hlen := (C91_entries hc hl hid hdt hn hv).1
  have ht : (W.enterLog v).map Prod.fst = (W.veh v).trace := enterScan_names _ _ _ _
  have hP : (W.enterLog v).map Prod.fst = P := by
    rw [ht]
    refine p.sub.eq_of_length ?_
    rw [← ht, List.length_map, hlen, p.len]
  rw [hP] at hb ⊢
  exact p.fair hr k b hb

/-- **C101.** Also without logs: a link to avoid is never entered. -/
theorem C101_avoid (h : Steered v W) (hr : (W.veh v).route = []) {l : ℕ} (hs : (W.veh v).state = .run)
    (hl : (W.veh v).link = some l) :
    l ∉ (W.veh v).avoid ∧ ((∃ d, d < W.g.nLinks ∧ (W.link d).src = (W.link l).src ∧ d ∈ (W.veh v).prefer) →
      l ∈ (W.veh v).prefer) := by
  obtain ⟨P, p⟩ := h.walk
  obtain ⟨l', h1, h2⟩ := p.on hs
  rw [hl] at h1
  obtain rfl : l = l' := Option.some.inj h1
  rw [List.getLast?_eq_getElem?] at h2
  have f := (p.fair hr _ _ h2).1
  exact ⟨f.2.2.1, f.2.2.2⟩

/-- **C101.** The choice at node `n` of a vehicle that has come over the links `P`: it is among the links that
may follow; in `hard_deterministic_mode` it is the first one of those with the highest preference and uses no
random number; otherwise, in exact arithmetic, it has a positive preference if there is one among them and the
number drawn is not 0. -/
theorem C101_choice (h : CReach W) (hr : (W.veh v).route = []) {n b : ℕ} {rng rng' : ℕ → ℕ} {P : List ℕ}
    (hP : ∀ m, (W.veh v).visited m = true ↔ Seen W P m)
    (hc : W.chooseNext v (W.node n).outLinks rng = .ok (some b, rng')) :
    ∃ ls, ls.Sublist (W.node n).outLinks ∧ (∀ c, c ∈ ls ↔ (W.link c).src = n ∧ Fair W v P c) ∧ b ∈ ls ∧
      (W.g.hardDet = true → FirstBest (W.g.pref (W.veh v).dest) ls b ∧ rng' = rng) ∧
      (W.g.hardDet = false → W.g.fl = id → (∀ c ∈ ls, 0 ≤ W.g.pref (W.veh v).dest c) →
        (∃ c ∈ ls, 0 < W.g.pref (W.veh v).dest c) → rng 0 % 2 ^ 53 ≠ 0 → 0 < W.g.pref (W.veh v).dest b) := by
  have i := h.rest.inv
  have ho : W.avoidFilter v (W.preferFilter v (W.node n).outLinks) ≠ [] :=
    List.ne_nil_of_mem (cyclicFilter_sub W v _ (chooseNext_pick hc hr))
  have hpk := chooseNext_pick hc hr
  rw [chooseNext_draws rng hr ho, Except.ok.injEq] at hc
  refine ⟨_, filters_sublist W v _, fun c => pick_iff i hP, hpk, fun hh => ?_, fun hh hid h0 h1 h2 => ?_⟩
  · unfold drawLink at hc
    rw [if_pos hh, Prod.mk.injEq] at hc
    exact ⟨firstMax_best hc.1, hc.2.symm⟩
  · unfold drawLink at hc
    rw [if_neg (by simp [hh]), hid] at hc
    exact randomChoice_pos h0 h1 h2 (by rw [hc])

/-- **C101.** Such a choice is made whenever a link is open, and throws if links begin at the node but none of
them is open. -/
theorem C101_total (h : CReach W) (hr : (W.veh v).route = []) (n : ℕ) (rng : ℕ → ℕ) :
    ((∃ c, Open W v n c) → ∃ b rng', W.chooseNext v (W.node n).outLinks rng = .ok (some b, rng')) ∧
    ((∃ c, c < W.g.nLinks ∧ (W.link c).src = n) → (¬ ∃ c, Open W v n c) →
      W.chooseNext v (W.node n).outLinks rng = .error .invalidArgument) ∧
    ((¬ ∃ c, c < W.g.nLinks ∧ (W.link c).src = n) → W.chooseNext v (W.node n).outLinks rng = .ok (none, rng)) := by
  have i := h.rest.inv
  refine ⟨fun ⟨c, hc⟩ => ?_, fun ⟨c, c1, c2⟩ hno => ?_, fun hno => ?_⟩
  · have ho := List.ne_nil_of_mem ((open_iff i v n c).2 hc)
    rw [chooseNext_draws rng hr ho]
    obtain ⟨b, hb⟩ := drawLink_some (W := W) (v := v) (cyclicFilter_ne ho) rng
    exact ⟨b, _, congrArg Except.ok (Prod.ext hb rfl)⟩
  · have ho : W.avoidFilter v (W.preferFilter v (W.node n).outLinks) = [] :=
      List.eq_nil_iff_forall_not_mem.2 fun d hd => hno ⟨d, (open_iff i v n d).1 hd⟩
    have hne : (W.node n).outLinks ≠ [] := List.ne_nil_of_mem ((i.outL n c).2 ⟨c1, c2⟩)
    unfold chooseNext
    rw [if_neg hne, if_neg (fun h => h hr)]
    simp only
    rw [if_pos ho]
  · have : (W.node n).outLinks = [] :=
      List.eq_nil_iff_forall_not_mem.2 fun d hd => hno ⟨d, (i.outL n d).1 hd⟩
    rw [this, chooseNext_nil]

/-- **C101.** So a run does not throw if every vehicle is never without an open link where links begin, or was
given before departure a way from its origin to its destination. -/
theorem C101_safe (h : CReach W)
    (hp : ∀ v, v < W.g.nVehs → Unstuck W v ∨ (Planned v W ∧ GoodPlan W v))
    {sched : ℕ → CWorld → Sched} (hs : ∀ t V, (sched t V).Valid V) (endTs : ℕ) :
    (W.mainLoop sched endTs).2 = none := by
  refine main_calm h.rest (fun t V _ => (hs t V).2.2.2.1.nodup_iff.2 List.nodup_range) endTs (fun v hv => ?_)
  rcases hp v hv with h | ⟨h, g⟩
  · exact Or.inl h
  · exact Or.inr ⟨g, h.fol⟩

/-! ## Concrete case -/

namespace Cpp

/-- Links 0 → 1, 1 → 0, 1 → 2, 0 → 2; all random numbers are 0. Vehicle 0 is to avoid the direct link. -/
def cppPick0 : CWorld :=
  let W0 := CWorld.empty id 200 5 1 10 (1/2) 0 false false true false true 1
  let W1 := (((W0.addNodeWith (0, 0) [0] 0 (-1) 0 (fun _ => 0)).addNodeWith (0, 0) [0] 0 (-1) 0
    (fun _ => 0))).addNodeWith (0, 0) [0] 0 (-1) 0 (fun _ => 0)
  let W2 := (((W1.addLink 0 1 cppRowArgs).addLink 1 0 cppRowArgs).addLink 1 2 cppRowArgs).addLink 0 2 cppRowArgs
  (((W2.addVehicle 0 0 2 []).addVehicle 0 0 2 []).initAdj).edit (.avoid 0 [3])

def cppPick (k : ℕ) : CWorld := (cppPick0.mainLoop (fun _ W => W.seqSched) k).1

theorem cppPick0_clean : CleanReach cppPick0 := by
  refine CleanReach.step ?_ (CleanStep.edit _ (.avoid 0 [3]))
  refine CleanReach.step ?_ (CleanStep.init _)
  refine CleanReach.step ?_ (CleanStep.vehicle _ 0 0 2 [] (by decide) (by decide))
  refine CleanReach.step ?_ (CleanStep.vehicle _ 0 0 2 [] (by decide) (by decide))
  refine CleanReach.step ?_ (CleanStep.link _ 0 2 cppRowArgs (by decide) (by decide) (by decide) (by decide))
  refine CleanReach.step ?_ (CleanStep.link _ 1 2 cppRowArgs (by decide) (by decide) (by decide) (by decide))
  refine CleanReach.step ?_ (CleanStep.link _ 1 0 cppRowArgs (by decide) (by decide) (by decide) (by decide))
  refine CleanReach.step ?_ (CleanStep.link _ 0 1 cppRowArgs (by decide) (by decide) (by decide) (by decide))
  refine CleanReach.step ?_ (CleanStep.node _ _ [0] 0 (-1) 0 (fun _ => 0) 1 rfl)
  refine CleanReach.step ?_ (CleanStep.node _ _ [0] 0 (-1) 0 (fun _ => 0) 1 rfl)
  refine CleanReach.step ?_ (CleanStep.node _ _ [0] 0 (-1) 0 (fun _ => 0) 1 rfl)
  exact CleanReach.empty id 200 5 1 10 (1/2) 0 false false true false true 1

theorem cppPick0_steered (v : ℕ) : Steered v cppPick0 := by
  have hh : ∀ {W : CWorld}, (W.veh v).state = .home →
      ∀ {X : Prop}, X ∨ (W.veh v).state = .home ∨ (W.veh v).state = .wait := fun h => Or.inr (Or.inl h)
  refine Steered.step ?_ (CStep.edit _ (.avoid 0 [3])) (hh ?_)
  · refine Steered.step ?_ (CStep.init _) (hh ?_)
    · refine Steered.step ?_ (CStep.vehicle _ 0 0 2 [] (by decide) (by decide)) (hh ?_)
      · refine Steered.step ?_ (CStep.vehicle _ 0 0 2 [] (by decide) (by decide)) (hh rfl)
        refine Steered.step ?_ (CStep.link _ 0 2 cppRowArgs (by decide) (by decide) (by decide) (by decide)) (hh rfl)
        refine Steered.step ?_ (CStep.link _ 1 2 cppRowArgs (by decide) (by decide) (by decide) (by decide)) (hh rfl)
        refine Steered.step ?_ (CStep.link _ 1 0 cppRowArgs (by decide) (by decide) (by decide) (by decide)) (hh rfl)
        refine Steered.step ?_ (CStep.link _ 0 1 cppRowArgs (by decide) (by decide) (by decide) (by decide)) (hh rfl)
        refine Steered.step ?_ (CStep.node _ _ [0] 0 (-1) 0 (fun _ => 0) 1 rfl) (hh rfl)
        refine Steered.step ?_ (CStep.node _ _ [0] 0 (-1) 0 (fun _ => 0) 1 rfl) (hh rfl)
        refine Steered.step ?_ (CStep.node _ _ [0] 0 (-1) 0 (fun _ => 0) 1 rfl) (hh rfl)
        exact Steered.empty id 200 5 1 10 (1/2) 0 false false true false true 1
      · exact addVehicle_home _ _ _ _ rfl
    · exact addVehicle_home _ _ _ _ (addVehicle_home _ _ _ _ rfl)
  · exact addVehicle_home _ _ _ _ (addVehicle_home _ _ _ _ rfl)

theorem cppPick_clean {k : ℕ} (h : (cppPick0.mainLoop (fun _ W => W.seqSched) k).2 = none) :
    CleanReach (cppPick k) :=
  CleanReach.step cppPick0_clean (CleanStep.run _ _ _ _ seqSched_valid (Prod.ext rfl h))

theorem cppPick_steered (k v : ℕ) : Steered v (cppPick k) := by
  refine Steered.step (cppPick0_steered v) (CStep.run cppPick0 k _ seqSched_valid) (Or.inl ?_)
  have e := mainLoop_evs cppPick0_clean.toReach.rest
    (fun t V _ => (seqSched_valid t V).2.2.2.1.nodup_iff.2 List.nodup_range) k
  have := e.par.veh v
  exact ⟨(congrArg CVeh.prefer this : ((cppPick k).veh v).par.prefer = (cppPick0.veh v).par.prefer),
    (congrArg CVeh.avoid this : ((cppPick k).veh v).par.avoid = (cppPick0.veh v).par.avoid),
    (congrArg CVeh.route this : ((cppPick k).veh v).par.route = (cppPick0.veh v).par.route),
    e.lift (P := fun X => X.g.nLinks = cppPick0.g.nLinks)
      (fun _ _ e h => (CGlob.fix_nLinks e.fix).trans h) rfl⟩

end Cpp

/-- Vehicle 0 goes round; at node 1 the random number 0 would send it back, but for `no_cyclic_routing`. -/
theorem C101_case : CleanReach (cppPick 14) ∧ Steered 0 (cppPick 14) ∧ (cppPick 14).g.logMode = true ∧
    (cppPick 14).g.fl = id ∧ 0 < (cppPick 14).g.deltaT ∧ NoLoops (cppPick 14) ∧ ((cppPick 14).veh 0).route = [] ∧
    ((cppPick 14).veh 0).avoid = [3] ∧ (cppPick 14).g.noCyclic = true ∧
    ((cppPick 14).enterLog 0).map Prod.fst = [0, 2] ∧ ((cppPick 14).veh 0).state = .ended ∧
    (cppPick0.mainLoop (fun _ W => W.seqSched) 14).2 = none ∧ Unstuck cppPick0 0 := by
  refine ⟨cppPick_clean (by decide +kernel), cppPick_steered 14 0, by decide +kernel, ?_, by decide +kernel, ?_,
    by decide +kernel, by decide +kernel, by decide +kernel, by decide +kernel, by decide +kernel,
    by decide +kernel, ?_⟩
  · exact (mainLoop_evs cppPick0_clean.toReach.rest
      (fun t V _ => (seqSched_valid t V).2.2.2.1.nodup_iff.2 List.nodup_range) 14).lift
      (P := fun X => X.g.fl = id) (fun _ _ e h => (CGlob.fix_fl e.fix).trans h) rfl
  · unfold NoLoops; decide +kernel
  · refine ⟨by decide +kernel, fun c hc => ?_⟩
    have key : ∀ c, c < 4 → ∃ d, d < 4 ∧ (cppPick0.link d).src = (cppPick0.link c).src ∧
        d ∉ (cppPick0.veh 0).avoid := by decide +kernel
    obtain ⟨d, d1, d2, d3⟩ := key c hc
    refine ⟨d, d1, d2, d3, fun ⟨e, _, _, he⟩ => ?_⟩
    have : (cppPick0.veh 0).prefer = [] := by decide +kernel
    rw [this] at he; simp at he

/-- Outside `hard_deterministic_mode` the random number 0 selects the first link even if its preference is 0
and that of another one is not. -/
theorem C101_zero_false : ¬ ∀ (W : CWorld) (v n b : ℕ) (rng : ℕ → ℕ), CleanReach W → W.g.fl = id →
    (W.veh v).route = [] → (W.chooseNext v (W.node n).outLinks (W.node n).rng) = .ok (some b, rng) →
    (∃ c ∈ (W.node n).outLinks, 0 < W.g.pref (W.veh v).dest c) → 0 < W.g.pref (W.veh v).dest b := by
  intro h
  have h1 : ((cppPick 1).chooseNext 1 ((cppPick 1).node 0).outLinks ((cppPick 1).node 0).rng).toOption.map Prod.fst =
      some (some 0) := by decide +kernel
  cases hc : (cppPick 1).chooseNext 1 ((cppPick 1).node 0).outLinks ((cppPick 1).node 0).rng with
  | error e => rw [hc] at h1; simp [Except.toOption] at h1
  | ok p =>
    rw [hc] at h1
    have h2 : p.1 = some 0 := by simpa [Except.toOption] using h1
    obtain ⟨o, rng⟩ := p
    simp only at h2
    subst h2
    have := h (cppPick 1) 1 0 0 rng (cppPick_clean (by decide +kernel))
      ((mainLoop_evs cppPick0_clean.toReach.rest
        (fun t V _ => (seqSched_valid t V).2.2.2.1.nodup_iff.2 List.nodup_range) 1).lift
        (P := fun X => X.g.fl = id) (fun _ _ e h => (CGlob.fix_fl e.fix).trans h) rfl)
      (by decide +kernel) hc (by decide +kernel)
    exact absurd this (by decide +kernel)

/-- A preferred link that is also to be avoided makes the run throw, although there is a link that is not to be
avoided. -/
theorem C101_clash_false : ¬ ∀ (W : CWorld), CleanReach W → (∀ v, v < W.g.nVehs → (W.veh v).route = []) →
    (∀ v, v < W.g.nVehs → ∀ n, n < W.g.nNodes → (W.node n).outLinks ≠ [] →
      ∃ l ∈ (W.node n).outLinks, l ∉ (W.veh v).avoid) →
    (W.mainLoop (fun _ W => W.seqSched) 20).2 = none := by
  intro h
  have key : ∀ v, v < 2 → ∀ n, n < 3 → ((cppPick0.edit (.prefer 0 [3])).node n).outLinks = [] ∨
      ∃ l ∈ ((cppPick0.edit (.prefer 0 [3])).node n).outLinks, l ∉ ((cppPick0.edit (.prefer 0 [3])).veh v).avoid := by
    decide +kernel
  have := h (cppPick0.edit (.prefer 0 [3])) (CleanReach.step cppPick0_clean (CleanStep.edit _ (.prefer 0 [3])))
    (by decide +kernel) (fun v hv n hn ho => (key v hv n hn).resolve_left ho)
  exact absurd this (by decide +kernel)

end UX
