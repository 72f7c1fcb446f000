import Verif.Proofs.CppSwap
import Verif.Proofs.CppArr
import Verif.Props.CppExt
import Verif.Props.CppPlan

/-!
# C95: a day of the C++ traffic assignment
-/

namespace UX
open Cpp Cpp.Spec Cpp.CWorld

/-! ## Which route a vehicle is given -/

section
variable {W : CWorld} {sets : ℕ → ℕ → Option (List (List ℕ))} {ext : Bool} {v : ℕ}

/-- **C95.** The route of a trip that has ended, as read from the log, is a way from the origin to the destination. -/
theorem C95_arrives (h : CleanReach W) (hl : W.g.logMode = true) (hfl : W.g.fl = id) (hT : 0 < W.g.deltaT)
    (hv : v < W.g.nVehs) (hs : (W.veh v).state = .ended) : Way W (W.veh v).orig (W.traveledRoute v).1 ∧
      ∃ l, (W.traveledRoute v).1.getLast? = some l ∧ (W.link l).dst = (W.veh v).dest := by
  refine ⟨(C91_dta h hl hfl hT hv).1, ?_⟩
  obtain ⟨l, h1, _, h3⟩ := h.toReach.trace_last hl hs
  have ht : (W.traveledRoute v).1 = (W.veh v).trace := enterScan_names _ _ _ _
  exact ⟨l, by rw [ht]; exact h1, h3⟩

/-- **C95.** A vehicle whose trip has not ended is given no route. One without a route set is given the route it drove.
One that drove none of the routes given from outside is given the first of them. None of them counts in the statistics,
and the result holds the route driven in each case. -/
theorem C95_fixed (flag : Bool) (own : ℚ) (alt : List ℕ → ℚ) :
    (∀ x, x = W.swapVeh sets ext flag own alt v → x.actual = (W.traveledRoute v).1 ∧
      ((W.veh v).state ≠ .ended → x.spec = [] ∧ x.nSwap = 0 ∧ x.pot = 0 ∧ x.gap = 0) ∧
      ((W.veh v).state = .ended → sets (W.veh v).orig (W.veh v).dest = none →
        x.spec = (W.traveledRoute v).1 ∧ x.nSwap = 0 ∧ x.pot = 0 ∧ x.gap = 0) ∧
      ((W.veh v).state = .ended → ∀ r rs, sets (W.veh v).orig (W.veh v).dest = some (r :: rs) → ext = true →
        (W.traveledRoute v).1 ∉ r :: rs → x.spec = r ∧ x.nSwap = 0 ∧ x.pot = 0 ∧ x.gap = 0)) := by
  rintro x rfl
  refine ⟨(swapVeh_actual W sets ext flag own alt v).1, fun hs => ?_, fun hs hr => ?_, fun hs r rs hr he hn => ?_⟩
  · refine swapVeh_fixed ?_ flag own alt
    unfold swapFixed
    rw [if_pos hs]
  · refine swapVeh_fixed ?_ flag own alt
    unfold swapFixed
    rw [if_neg (by simpa using hs), hr]
  · refine swapVeh_fixed ?_ flag own alt
    unfold swapFixed
    rw [if_neg (by simpa using hs), hr]
    simp only
    rw [if_pos ⟨he, hn⟩]

/-- **C95.** For users: the other vehicles compare the cost of the route they drove, which is its time plus the tolls
they paid, with the costs of the routes of their set from the same start. -/
theorem C95_due (h : CleanReach W) (hl : W.g.logMode = true) (hfl : W.g.fl = id) (hT : 0 < W.g.deltaT)
    (hn : 0 < W.g.totalSteps) (hv : v < W.g.nVehs) {rs : List (List ℕ)} (hd : Decides W sets ext v rs)
    (hrs : ∀ r ∈ rs, ∀ l ∈ r, l < W.g.nLinks) (may : Bool) {t : ℚ} (ht : (W.traveledRoute v).2.1.head? = some t) :
    Decision W.g.deltaN may (W.traveledRoute v).1
      (total (linkTime W) (linkTime W) (W.traveledRoute v).1 t +
        (List.zipWith (tollAt W) (W.traveledRoute v).1 (W.traveledRoute v).2.1).sum)
      (fun r => total (linkTime W) (fun l s => linkTime W l s + tollAt W l s) r t) rs
      (W.swapVehDue sets ext may v) := by
  obtain ⟨w, _, e⟩ := C91_dta h hl hfl hT hv
  have hst : W.startTime v = t := by
    unfold startTime
    rw [List.headD_eq_head?_getD, ht]; rfl
  have := swapVeh_decides hfl (flag := may) hd
    (W.costOwn (W.traveledRoute v).1 (W.traveledRoute v).2.1 (W.startTime v) 0)
    (fun r => W.costDue r (W.startTime v))
  rw [C93_own h.toReach hfl hT hn w.2.2 e.symm, hst] at this
  unfold swapVehDue
  rw [C93_own h.toReach hfl hT hn w.2.2 e.symm, hst]
  exact this.congr (fun r hr => C93_due h.toReach hfl hT hn (hrs r hr) t)

/-- **C95.** For the system: the same comparison with the marginal costs. -/
theorem C95_dso (h : CleanReach W) (hl : W.g.logMode = true) (hfl : W.g.fl = id) (hT : 0 < W.g.deltaT)
    (hn : 0 < W.g.totalSteps) (hv : v < W.g.nVehs) {rs : List (List ℕ)} (hd : Decides W sets ext v rs)
    (hrs : ∀ r ∈ rs, ∀ l ∈ r, l < W.g.nLinks) (may : Bool) {t : ℚ} (ht : (W.traveledRoute v).2.1.head? = some t) :
    Decision W.g.deltaN may (W.traveledRoute v).1
      (total (linkTime W) (fun l s => linkTime W l s + W.extLink l ⌊s / W.g.deltaT⌋₊) (W.traveledRoute v).1 t)
      (fun r => total (linkTime W) (fun l s => linkTime W l s + W.extLink l ⌊s / W.g.deltaT⌋₊) r t) rs
      (W.swapVehDso sets ext may v) := by
  obtain ⟨w, _, e⟩ := C91_dta h hl hfl hT hv
  have hst : W.startTime v = t := by
    unfold startTime
    rw [List.headD_eq_head?_getD, ht]; rfl
  have := swapVeh_decides hfl (flag := may) hd (W.costDso (W.traveledRoute v).1 (W.startTime v))
    (fun r => W.costDso r (W.startTime v))
  rw [C94_dso h.toReach hfl hT hn w.2.2, hst] at this
  unfold swapVehDso
  rw [C94_dso h.toReach hfl hT hn w.2.2, hst]
  exact this.congr (fun r hr => C94_dso h.toReach hfl hT hn (hrs r hr) t)

/-- **C95.** In the assignment for the system a vehicle is never counted as changing to the route it drove. -/
theorem C95_dso_moves (hfl : W.g.fl = id) {rs : List (List ℕ)} (hd : Decides W sets ext v rs) (hN : W.g.deltaN ≠ 0)
    (may : Bool) : ((W.swapVehDso sets ext may v).nSwap ≠ 0 ↔ (W.swapVehDso sets ext may v).spec ≠ (W.traveledRoute v).1) := by
  have d := swapVeh_decides hfl (flag := may) hd (W.costDso (W.traveledRoute v).1 (W.startTime v))
    (fun r => W.costDso r (W.startTime v))
  by_cases hk : may = false ∨ ∀ r ∈ rs, W.costDso (W.traveledRoute v).1 (W.startTime v) ≤ W.costDso r (W.startTime v)
  · have := d.keep hk
    unfold swapVehDso
    rw [this.1, this.2]; simp
  · rw [not_or] at hk
    obtain ⟨hm, hk⟩ := hk
    push Not at hk
    have := d.change (by simpa using hm) hk
    unfold swapVehDso
    refine ⟨fun _ he => ?_, fun _ => by rw [this.2]; exact hN⟩
    obtain ⟨i, _, h2, _⟩ := this.1
    obtain ⟨r, hr, hlt⟩ := hk
    have := h2 r hr
    rw [he] at this
    exact absurd this (not_le.2 hlt)

end

/-! ## A whole day -/

section
variable {W : CWorld} (sets : ℕ → ℕ → Option (List (List ℕ))) (p : ℚ) (ext : Bool) (u : ℕ → ℚ)

open Classical in
/-- **C95.** For users: one row for each vehicle in order; a vehicle may change if its draw is below the swap
probability, and draws are made only for the vehicles whose costs decide. -/
theorem C95_draws : (W.swapDue sets p ext u).length = W.g.nVehs ∧ ∀ v, v < W.g.nVehs →
    (∃ rs, Decides W sets ext v rs) → (W.swapDue sets p ext u)[v]? = some (W.swapVehDue sets ext
      (decide (u ((List.range v).filter (fun w => ∃ rs, Decides W sets ext w rs)).length < p)) v) := by
  obtain ⟨h1, h2⟩ := dueRows_get W sets p ext (List.range W.g.nVehs) u
  refine ⟨h1.trans List.length_range, fun v hv hd => ?_⟩
  have := h2 v v (by rw [List.getElem?_range hv])
  have e : drawsBefore W sets ext ((List.range W.g.nVehs).take v) =
      ((List.range v).filter (fun w => ∃ rs, Decides W sets ext w rs)).length := by
    unfold drawsBefore
    rw [List.take_range, min_eq_left hv.le]
    congr 1
    exact List.filter_congr (fun w _ => by simp [swapFixed_decides])
  unfold swapDue
  rw [this, e]
  congr 2
  simp [swapFixed_decides.2 hd]

/-- **C95.** For the system: with a given number of changes exactly this many vehicles may change (all if there are
fewer), whatever the shuffle. -/
theorem C95_candidates {num : ℤ} (hnum : 0 ≤ num) {perm : List ℕ} (hp : perm.Perm (List.range W.g.nVehs)) :
    ((List.range W.g.nVehs).filter (fun v => candidate p num perm u v)).length = min num.toNat W.g.nVehs := by
  have hl : perm.length = W.g.nVehs := by rw [hp.length_eq, List.length_range]
  have : ((List.range W.g.nVehs).filter (fun v => candidate p num perm u v)).Perm (perm.take (min num.toNat perm.length)) := by
    refine (List.perm_ext_iff_of_nodup (List.nodup_range.filter _)
      ((hp.nodup_iff.2 List.nodup_range).sublist (List.take_sublist _ _))).2 (fun v => ?_)
    rw [List.mem_filter]
    unfold candidate
    rw [if_pos hnum, decide_eq_true_eq]
    exact ⟨fun h => h.2, fun h => ⟨hp.mem_iff.1 (List.mem_of_mem_take h), h⟩⟩
  rw [this.length_eq, List.length_take, hl]
  omega

end

section
variable {W : CWorld} (hfl : W.g.fl = id) (hN : 0 < W.g.deltaN) {sets : ℕ → ℕ → Option (List (List ℕ))} {ext : Bool}
  {p : ℚ} {num : ℤ} {perm : List ℕ} {u : ℕ → ℚ}
include hfl hN

/-- **C95.** For users: as many vehicles change as are counted to change, no more than would like to; none would like
to exactly if the day is an equilibrium: every vehicle whose costs decide is on a cheapest route. -/
theorem C95_equilibrium_due :
    0 ≤ W.swapTotal SwapRow.nSwap (W.swapDue sets p ext u) ∧
    W.swapTotal SwapRow.nSwap (W.swapDue sets p ext u) ≤ W.swapTotal SwapRow.pot (W.swapDue sets p ext u) ∧
    (W.swapTotal SwapRow.pot (W.swapDue sets p ext u) = 0 ↔ ∀ v, v < W.g.nVehs → ∀ rs, Decides W sets ext v rs →
      ∀ r ∈ rs, W.costOwn (W.traveledRoute v).1 (W.traveledRoute v).2.1 (W.startTime v) 0 ≤ W.costDue r (W.startTime v)) ∧
    (W.swapTotal SwapRow.gap (W.swapDue sets p ext u) = 0 ↔ W.swapTotal SwapRow.pot (W.swapDue sets p ext u) = 0) := by
  rw [swapDue_eq]
  exact day_totals hfl hN _ _ _

/-- **C95.** For the system: the same. -/
theorem C95_equilibrium_dso :
    0 ≤ W.swapTotal SwapRow.nSwap (W.swapDso sets p num ext perm u) ∧
    W.swapTotal SwapRow.nSwap (W.swapDso sets p num ext perm u) ≤ W.swapTotal SwapRow.pot (W.swapDso sets p num ext perm u) ∧
    (W.swapTotal SwapRow.pot (W.swapDso sets p num ext perm u) = 0 ↔ ∀ v, v < W.g.nVehs → ∀ rs, Decides W sets ext v rs →
      ∀ r ∈ rs, W.costDso (W.traveledRoute v).1 (W.startTime v) ≤ W.costDso r (W.startTime v)) ∧
    (W.swapTotal SwapRow.gap (W.swapDso sets p num ext perm u) = 0 ↔
      W.swapTotal SwapRow.pot (W.swapDso sets p num ext perm u) = 0) :=
  day_totals hfl hN _ _ _

/-- **C95.** For the system with a given number of changes: at most this many are made. -/
theorem C95_limit (hnum : 0 ≤ num) (hp : perm.Perm (List.range W.g.nVehs)) :
    W.swapTotal SwapRow.nSwap (W.swapDso sets p num ext perm u) ≤ W.g.deltaN * min num.toNat W.g.nVehs := by
  have hc := C95_candidates (W := W) p u hnum hp
  rw [swapTotal_eq hfl]
  unfold swapDso
  rw [List.map_map]
  have : ∀ vs : List ℕ, (vs.map (SwapRow.nSwap ∘ fun v => W.swapVehDso sets ext (candidate p num perm u v) v)).sum ≤
      W.g.deltaN * (vs.filter (fun v => candidate p num perm u v)).length := by
    intro vs
    induction vs with
    | nil => simp
    | cons v vs ih =>
      rw [List.map_cons, List.sum_cons, List.filter_cons]
      have hrow : ∀ f, (W.swapVehDso sets ext f v).nSwap ≤ (if f = true then W.g.deltaN else 0) := by
        intro f
        rcases hfx : W.swapFixed sets ext v with _ | r
        · obtain ⟨rs, hd⟩ := swapFixed_decides.1 hfx
          have d := swapVeh_decides hfl (flag := f) hd (W.costDso (W.traveledRoute v).1 (W.startTime v))
            (fun r => W.costDso r (W.startTime v))
          by_cases hk : f = false ∨ ∀ r ∈ rs, W.costDso (W.traveledRoute v).1 (W.startTime v) ≤ W.costDso r (W.startTime v)
          · have := (d.keep hk).2
            unfold swapVehDso
            rw [this]
            split <;> linarith
          · rw [not_or] at hk
            obtain ⟨hm, hk⟩ := hk
            push Not at hk
            have hm : f = true := by simpa using hm
            have := (d.change hm hk).2
            unfold swapVehDso
            rw [this, if_pos hm]
        · have := (swapVeh_fixed hfx f (W.costDso (W.traveledRoute v).1 (W.startTime v))
            (fun r => W.costDso r (W.startTime v))).2.1
          unfold swapVehDso
          rw [this]
          split <;> linarith
      have h1 := hrow (candidate p num perm u v)
      simp only [Function.comp] at h1 ih ⊢
      by_cases hcv : candidate p num perm u v = true
      · rw [if_pos hcv] at h1 ⊢
        rw [List.length_cons]
        push_cast
        linarith
      · rw [if_neg hcv] at h1 ⊢
        linarith
  refine (this _).trans ?_
  rw [hc]

end

/-! ## The next day -/

section
variable {W V : CWorld} (h : CleanReach W) (hl : W.g.logMode = true) (hfl : W.g.fl = id) (hT : 0 < W.g.deltaT)
  {sets : ℕ → ℕ → Option (List (List ℕ))} (hsets : SetsOK W sets) {ext : Bool} {p : ℚ} {num : ℤ} {perm : List ℕ}
  {u : ℕ → ℚ} (hV : NewDay V) (hsame : SameScenario W V)
include h hl hfl hT hsets hV hsame

theorem next_plans {row : ℕ → SwapRow}
    (hrow : ∀ v, ∃ flag own alt, row v = W.swapVeh sets ext flag own alt v) :
    let V' := V.batchEnforce (((List.range W.g.nVehs).map row).map SwapRow.spec)
    CReach V' ∧ ∀ v, v < V'.g.nVehs →
      ((W.veh v).state ≠ .ended → Unplanned V' v) ∧
      ((W.veh v).state = .ended → Planned v V' ∧ (V'.veh v).route = (row v).spec ∧ GoodPlan V' v) := by
  intro V'
  obtain ⟨e1, e2, _, e4⟩ := enforceFrom_spec (((List.range W.g.nVehs).map row).map SwapRow.spec) V 0
  refine ⟨enforceFrom_reach _ 0 hV.1, fun v hv => ?_⟩
  have hv1 : v < V.g.nVehs := by rw [← congrArg CGlob.nVehs e1]; exact hv
  have hv2 : v < W.g.nVehs := hsame.2.1 ▸ hv1
  have hget : (((List.range W.g.nVehs).map row).map SwapRow.spec)[v - 0]? = some (row v).spec := by
    rw [Nat.sub_zero, List.getElem?_map, List.getElem?_map, List.getElem?_range hv2]; rfl
  obtain ⟨flag, own, alt, hr⟩ := hrow v
  have hspec := swapVeh_spec W sets ext flag own alt v
  rw [← hr] at hspec
  obtain ⟨s1, s2, s3⟩ := hV.2 v hv1
  refine ⟨fun hs => ?_, fun hs => ?_⟩
  · rcases hspec with ⟨_, he⟩ | ⟨h', _⟩
    · rcases e4 v with ⟨q1, _⟩ | ⟨r, _, _, q3, q4, _⟩
      · show (V'.veh v).route = [] ∧ (V'.veh v).avoid = []
        rw [show V'.veh v = V.veh v from q1]
        exact s2
      · rw [hget] at q3
        exact absurd ((Option.some.inj q3).symm.trans he) q4
    · exact absurd h' hs
  · have good : Way W (W.veh v).orig (row v).spec ∧
        ∃ l, (row v).spec.getLast? = some l ∧ (W.link l).dst = (W.veh v).dest := by
      rcases hspec with ⟨h', _⟩ | ⟨_, he | ⟨rs, h1, h2⟩⟩
      · exact absurd hs h'
      · rw [he]; exact C95_arrives h hl hfl hT hv2 hs
      · exact hsets _ _ rs _ h1 h2
    obtain ⟨gw, l, gl, gd⟩ := good
    have hin : l ∈ (row v).spec := List.mem_of_getLast? gl
    rcases e4 v with ⟨_, q2⟩ | ⟨r, _, _, q3, q4, q5⟩
    · have := q2 hv1 (Nat.zero_le _) _ hget
      rw [this] at hin; simp at hin
    · rw [hget] at q3
      obtain rfl := Option.some.inj q3
      have hroute : (V'.veh v).route = (row v).spec := by
        rw [show V'.veh v = _ from q5]
        show ((row v).spec.filter _) = _
        refine List.filter_eq_self.2 (fun m hm => ?_)
        rw [decide_eq_true_eq, hsame.1]
        exact gw.2.2 m hm
      have horig : (V'.veh v).orig = (W.veh v).orig := by
        rw [show V'.veh v = _ from q5]; exact (hsame.2.2.2 v hv2).1
      have hdest : (V'.veh v).dest = (W.veh v).dest := by
        rw [show V'.veh v = _ from q5]; exact (hsame.2.2.2 v hv2).2
      have hsrc : ∀ m ∈ (row v).spec, (V'.link m).src = (W.link m).src ∧ (V'.link m).dst = (W.link m).dst := by
        intro m hm
        rw [show V'.link = V.link from e2]
        exact hsame.2.2.1 m (gw.2.2 m hm)
      refine ⟨enforceFrom_planned _ 0 v s3 s1, hroute, ⟨?_, ?_, ?_⟩, l, by rw [hroute]; exact gl, ?_⟩
      · intro m hm
        rw [hroute] at hm
        rw [horig, (hsrc m (List.mem_of_head? hm)).1]
        exact gw.1 m hm
      · rw [hroute]
        refine List.IsChain.imp_of_mem_imp (fun a b ha hb hab => ?_) gw.2.1
        rw [(hsrc a ha).2, (hsrc b hb).1]
        exact hab
      · intro m hm
        rw [hroute] at hm
        rw [show V'.g = V.g from e1, hsame.1]
        exact gw.2.2 m hm
      · rw [(hsrc l hin).2, hdest]; exact gd

/-- **C95.** For users: on the next day the vehicles whose trip ended have the route decided, as a way to their
destination, the others are free to choose, and the run does not throw. -/
theorem C95_next_due {sched : ℕ → CWorld → Sched} (hs : ∀ t X, (sched t X).Valid X) (endTs : ℕ) :
    let V' := V.batchEnforce ((W.swapDue sets p ext u).map SwapRow.spec)
    CReach V' ∧ (∀ v, v < V'.g.nVehs → ((W.veh v).state ≠ .ended → Unplanned V' v) ∧
      ((W.veh v).state = .ended → GoodPlan V' v ∧
        ∃ x, (W.swapDue sets p ext u)[v]? = some x ∧ (V'.veh v).route = x.spec)) ∧
    (V'.mainLoop sched endTs).2 = none := by
  intro V'
  have hn : V'.g.nVehs = W.g.nVehs := by
    rw [show V'.g = V.g from (enforceFrom_spec _ V 0).1]; exact hsame.2.1
  have e := swapDue_eq W sets p ext u
  obtain ⟨r1, r2⟩ := next_plans h hl hfl hT hsets hV hsame (ext := ext) (row := fun v => W.swapVehDue sets ext
    (decide (W.swapFixed sets ext v = none ∧ u (drawsBefore W sets ext (List.range v)) < p)) v)
    (fun v => ⟨_, _, _, rfl⟩)
  rw [← e] at r1 r2
  refine ⟨r1, fun v hv => ⟨(r2 v hv).1, fun hs => ?_⟩, C92_safe r1 (fun v hv => ?_) hs endTs⟩
  · obtain ⟨_, q2, q3⟩ := (r2 v hv).2 hs
    refine ⟨q3, _, ?_, q2⟩
    rw [e, List.getElem?_map, List.getElem?_range (hn ▸ hv)]; rfl
  · by_cases hs : (W.veh v).state = .ended
    · obtain ⟨q1, _, q3⟩ := (r2 v hv).2 hs
      exact Or.inr ⟨q1, q3⟩
    · exact Or.inl ((r2 v hv).1 hs)

/-- **C95.** For the system: the same. -/
theorem C95_next_dso {sched : ℕ → CWorld → Sched} (hs : ∀ t X, (sched t X).Valid X) (endTs : ℕ) :
    let V' := V.batchEnforce ((W.swapDso sets p num ext perm u).map SwapRow.spec)
    CReach V' ∧ (∀ v, v < V'.g.nVehs → ((W.veh v).state ≠ .ended → Unplanned V' v) ∧
      ((W.veh v).state = .ended → GoodPlan V' v ∧
        ∃ x, (W.swapDso sets p num ext perm u)[v]? = some x ∧ (V'.veh v).route = x.spec)) ∧
    (V'.mainLoop sched endTs).2 = none := by
  intro V'
  have hn : V'.g.nVehs = W.g.nVehs := by
    rw [show V'.g = V.g from (enforceFrom_spec _ V 0).1]; exact hsame.2.1
  obtain ⟨r1, r2⟩ := next_plans h hl hfl hT hsets hV hsame (ext := ext) (row := fun v => W.swapVehDso sets ext
    (candidate p num perm u v) v) (fun v => ⟨_, _, _, rfl⟩)
  refine ⟨r1, fun v hv => ⟨(r2 v hv).1, fun hs => ?_⟩, C92_safe r1 (fun v hv => ?_) hs endTs⟩
  · obtain ⟨_, q2, q3⟩ := (r2 v hv).2 hs
    refine ⟨q3, _, ?_, q2⟩
    unfold swapDso
    rw [List.getElem?_map, List.getElem?_range (hn ▸ hv)]; rfl
  · by_cases hs : (W.veh v).state = .ended
    · obtain ⟨q1, _, q3⟩ := (r2 v hv).2 hs
      exact Or.inr ⟨q1, q3⟩
    · exact Or.inl ((r2 v hv).1 hs)

end

/-! ## Concrete case -/

namespace Cpp

/-- The network of `cppPlan0` without a given route. -/
def cppDay0 : CWorld :=
  let W0 := CWorld.empty id 200 5 1 10 (1/2) 0 true false false false true 1
  let W1 := (((W0.addNodeWith (0, 0) [0] 0 (-1) 0 (fun _ => 0)).addNodeWith (0, 0) [0] 0 (-1) 0
    (fun _ => 0))).addNodeWith (0, 0) [0] 0 (-1) 0 (fun _ => 0)
  let W2 := ((W1.addLink 0 1 cppRowArgs).addLink 1 2 cppRowArgs).addLink 0 2 cppRowArgs
  ((W2.addVehicle 0 0 2 []).addVehicle 0 0 2 []).initAdj

def cppDaySets : ℕ → ℕ → Option (List (List ℕ)) := fun o d => if o = 0 ∧ d = 2 then some [[0, 1], [2]] else none

theorem cppDay0_planned (v : ℕ) : Planned v cppDay0 := by
  refine Planned.step ?_ (CStep.init _) (Or.inl rfl)
  refine Planned.step ?_ (CStep.vehicle _ 0 0 2 [] (by decide) (by decide)) (Or.inr (Or.inl ?_))
  · refine Planned.step ?_ (CStep.vehicle _ 0 0 2 [] (by decide) (by decide)) (Or.inr (Or.inl rfl))
    refine Planned.step ?_ (CStep.link _ 0 2 cppRowArgs (by decide) (by decide) (by decide) (by decide)) (Or.inl rfl)
    refine Planned.step ?_ (CStep.link _ 1 2 cppRowArgs (by decide) (by decide) (by decide) (by decide)) (Or.inl rfl)
    refine Planned.step ?_ (CStep.link _ 0 1 cppRowArgs (by decide) (by decide) (by decide) (by decide)) (Or.inl rfl)
    refine Planned.step ?_ (CStep.node _ _ [0] 0 (-1) 0 (fun _ => 0) 1 rfl) (Or.inl rfl)
    refine Planned.step ?_ (CStep.node _ _ [0] 0 (-1) 0 (fun _ => 0) 1 rfl) (Or.inl rfl)
    refine Planned.step ?_ (CStep.node _ _ [0] 0 (-1) 0 (fun _ => 0) 1 rfl) (Or.inl rfl)
    exact Planned.empty id 200 5 1 10 (1/2) 0 true false false false true 1
  · exact addVehicle_home _ _ _ _ rfl

theorem cppDay_new : NewDay cppDay0 := by
  refine ⟨(cppDay0_planned 0).toReach, fun v hv => ?_⟩
  have hv : v < 2 := hv
  have : ∀ v < 2, (cppDay0.veh v).state = .home ∧ (cppDay0.veh v).route = [] ∧ (cppDay0.veh v).avoid = [] := by decide +kernel
  exact ⟨(this v hv).1, (this v hv).2, cppDay0_planned v⟩

theorem cppDay_same : SameScenario (cppPlan 8) cppDay0 :=
  ⟨by decide +kernel, by decide +kernel, by decide +kernel, by decide +kernel⟩

theorem cppDay_sets : SetsOK (cppPlan 8) cppDaySets := by
  intro o d rs r h hr
  unfold cppDaySets at h
  split at h
  · rename_i e
    obtain ⟨rfl, rfl⟩ := e
    obtain rfl := Option.some.inj h
    rcases List.mem_cons.1 hr with rfl | hr
    · refine ⟨⟨?_, ?_, ?_⟩, 1, rfl, by decide +kernel⟩
      · intro l hl
        obtain rfl : 0 = l := by simpa using hl
        decide +kernel
      · rw [List.isChain_pair]; decide +kernel
      · decide +kernel
    · obtain rfl : r = [2] := by simpa using hr
      refine ⟨⟨?_, List.isChain_singleton _, ?_⟩, 2, rfl, by decide +kernel⟩
      · intro l hl
        obtain rfl : 2 = l := by simpa using hl
        decide +kernel
      · decide +kernel
  · simp at h

end Cpp

/-- Vehicle 0 drove the detour and changes to the direct link, vehicle 1 keeps it; on the next day both use it. -/
theorem C95_case : CleanReach (cppPlan 8) ∧ (cppPlan 8).g.logMode = true ∧ 0 < (cppPlan 8).g.deltaT ∧
    0 < (cppPlan 8).g.totalSteps ∧ 0 < (cppPlan 8).g.deltaN ∧ SetsOK (cppPlan 8) cppDaySets ∧
    Decides (cppPlan 8) cppDaySets false 0 [[0, 1], [2]] ∧ ((cppPlan 8).traveledRoute 0).2.1.head? = some 5 ∧
    NewDay cppDay0 ∧ SameScenario (cppPlan 8) cppDay0 ∧
    (cppPlan 8).swapDue cppDaySets (1/2) false (fun k => if k = 0 then 1/4 else 3/4) =
      [⟨[2], [0, 1], 20, 5, 5, 10⟩, ⟨[2], [2], 10, 0, 0, 0⟩] ∧
    (cppPlan 8).swapDso cppDaySets (1/2) 1 true [1, 0] (fun _ => 0) =
      [⟨[0, 1], [0, 1], 20, 0, 5, 10⟩, ⟨[2], [2], 10, 0, 0, 0⟩] ∧
    (((cppDay0.batchEnforce [[2], [2]]).mainLoop (fun _ W => W.seqSched) 8).1.traveledRoute 0).1 = [2] := by
  refine ⟨cppPlan_clean (by decide +kernel), by decide +kernel, by decide +kernel, by decide +kernel, by decide +kernel,
    cppDay_sets, ⟨by decide +kernel, by decide +kernel, fun h => by simp at h⟩, by decide +kernel, cppDay_new, cppDay_same,
    by decide +kernel, by decide +kernel, by decide +kernel⟩

/-- **C95.** With a series of tolls a user is counted as changing the route although the route is the one they drove:
vehicle 0 paid the toll of 3 at 20 s, the same route as an alternative pays that of 25 s. -/
theorem C95_moves_false : ¬ ∀ (W : CWorld) (sets : ℕ → ℕ → Option (List (List ℕ))) (v : ℕ) (rs : List (List ℕ)),
    CleanReach W → W.g.fl = id → 0 < W.g.deltaT → W.g.logMode = true → v < W.g.nVehs → Decides W sets false v rs →
    (W.swapVehDue sets false true v).nSwap ≠ 0 → (W.swapVehDue sets false true v).spec ≠ (W.traveledRoute v).1 := by
  intro h
  have := h (cppTwo 12) (fun _ _ => some [[0, 1]]) 0 [[0, 1]] cppTwo_clean cppTwo_fl (by decide +kernel) (by decide +kernel)
    (by decide +kernel) ⟨by decide +kernel, rfl, fun h => by simp at h⟩
  revert this
  decide +kernel

namespace Cpp

/-- `cppPlan0` without vehicle logs. -/
def cppBlind0 : CWorld :=
  let W0 := CWorld.empty id 200 5 1 10 (1/2) 0 true false false false false 1
  let W1 := (((W0.addNodeWith (0, 0) [0] 0 (-1) 0 (fun _ => 0)).addNodeWith (0, 0) [0] 0 (-1) 0
    (fun _ => 0))).addNodeWith (0, 0) [0] 0 (-1) 0 (fun _ => 0)
  let W2 := ((W1.addLink 0 1 cppRowArgs).addLink 1 2 cppRowArgs).addLink 0 2 cppRowArgs
  (((W2.addVehicle 0 0 2 []).addVehicle 0 0 2 []).initAdj).edit (.enforce 0 [0, 1])

def cppBlind (k : ℕ) : CWorld := (cppBlind0.mainLoop (fun _ W => W.seqSched) k).1

theorem cppBlind0_clean : CleanReach cppBlind0 := by
  refine CleanReach.step ?_ (CleanStep.edit _ (.enforce 0 [0, 1]))
  refine CleanReach.step ?_ (CleanStep.init _)
  refine CleanReach.step ?_ (CleanStep.vehicle _ 0 0 2 [] (by decide) (by decide))
  refine CleanReach.step ?_ (CleanStep.vehicle _ 0 0 2 [] (by decide) (by decide))
  refine CleanReach.step ?_ (CleanStep.link _ 0 2 cppRowArgs (by decide) (by decide) (by decide) (by decide))
  refine CleanReach.step ?_ (CleanStep.link _ 1 2 cppRowArgs (by decide) (by decide) (by decide) (by decide))
  refine CleanReach.step ?_ (CleanStep.link _ 0 1 cppRowArgs (by decide) (by decide) (by decide) (by decide))
  refine CleanReach.step ?_ (CleanStep.node _ _ [0] 0 (-1) 0 (fun _ => 0) 1 rfl)
  refine CleanReach.step ?_ (CleanStep.node _ _ [0] 0 (-1) 0 (fun _ => 0) 1 rfl)
  refine CleanReach.step ?_ (CleanStep.node _ _ [0] 0 (-1) 0 (fun _ => 0) 1 rfl)
  exact CleanReach.empty id 200 5 1 10 (1/2) 0 true false false false false 1

theorem cppBlind_run : cppBlind0.mainLoop (fun _ W => W.seqSched) 8 = (cppBlind 8, none) :=
  Prod.ext rfl (by decide +kernel)

theorem cppBlind_clean : CleanReach (cppBlind 8) :=
  CleanReach.step cppBlind0_clean (CleanStep.run _ _ _ _ seqSched_valid cppBlind_run)

theorem cppBlind_fl : (cppBlind 8).g.fl = id := by
  obtain ⟨_, r⟩ := main_hist seqSched_valid cppBlind0_clean.toReach.rest cppBlind_run
  exact CGlob.fix_fl r.keep.2.1

end Cpp

/-- **C95.** Without vehicle logs the routes driven are taken to be empty and to cost nothing: nobody is found to gain
by changing although the direct link takes less time than the detour, and nobody is given a route. -/
theorem C95_nolog_false : ¬ ∀ (W : CWorld) (sets : ℕ → ℕ → Option (List (List ℕ))) (v : ℕ) (rs : List (List ℕ)) (q r : List ℕ),
    CleanReach W → W.g.fl = id → 0 < W.g.deltaT → v < W.g.nVehs → Decides W sets false v rs →
    (W.veh v).route = q → q ∈ rs → r ∈ rs → W.costDue r (W.startTime v) < W.costDue q (W.startTime v) →
    0 < (W.swapVehDue sets false true v).pot ∨ (W.swapVehDue sets false true v).spec ≠ [] := by
  intro h
  have := h (cppBlind 8) cppDaySets 0 [[0, 1], [2]] [0, 1] [2] cppBlind_clean cppBlind_fl (by decide +kernel)
    (by decide +kernel) ⟨by decide +kernel, by decide +kernel, fun h => by simp at h⟩ (by decide +kernel) (by decide)
    (by decide) (by decide +kernel)
  revert this
  decide +kernel

end UX
