import Verif.Proofs.Floyd
import Verif.Props.Stats
import Verif.Props.Kinematics

/-!
# Free-flow travel times and delays (C66)
-/

namespace UX
open World

theorem Trail.path {L : LinkF} {o : NodeId} {ls : List LinkId} (h : Trail L.startN L.endN o ls) :
    PathFrom L o ls := by
  induction ls generalizing o with
  | nil => trivial
  | cons l r ih => exact ⟨h.1, ih h.2⟩

/-- C66: a finished trip went along connected links from origin to destination and took at least the
free-flow time of these links. -/
theorem C66_trip {u0 : LinkId → ℚ} {W : World} (h : Reachable (ExactOK u0) W) {v : VehId}
    (hv : W.V.state v = .ended) :
    PathFrom W.L (W.V.orig v) (travelled v W.trace) ∧
    W.V.dest v = some (pathEnd W.L (W.V.orig v) (travelled v W.trace)) ∧
    (∀ l ∈ travelled v W.trace, l < W.nLinks) ∧
    costSum (fun l => W.L.length l / u0 l) (travelled v W.trace) ≤ W.V.travelTime v := by
  have hE := EInv.reach h
  have hF := FF.reach (u0 := u0) (fun _ h => h) h
  obtain ⟨e1, e2, -, e4⟩ := hE.ended v hv
  obtain ⟨l, hl⟩ := hE.fin_ev v hv
  obtain ⟨-, -, hs, -⟩ := hE.ev_fin _ v l false hl
  obtain ⟨-, hm, hd⟩ := hs rfl
  obtain ⟨ls, f1, f2, f3⟩ := hF.fin _ v l false hl hm
  refine ⟨f1 ▸ f2.path, ?_, hF.lks v, ?_⟩
  · rw [f1, hd]; simp [pathEnd]
  · have hex : W.cfg.fl = id := by
      have := h.ok
      exact this.exact
    rw [f1, e4, hex]
    refine le_trans (le_of_eq rfl) (le_trans f3 (le_of_eq ?_))
    have : (((W.V.arrTime v).toNat : ℕ) : ℚ) = (W.V.arrTime v : ℚ) := by
      have h1 : (((W.V.arrTime v).toNat : ℕ) : ℤ) = W.V.arrTime v := Int.toNat_of_nonneg e2
      exact_mod_cast h1
    rw [this]
    push_cast
    rfl

/-- C66: `dist_time` and `dist_space` are the least cost over the connected paths of counted links: no
such path costs less, and a finite value is the cost of one of them. -/
theorem C66_least {W : World} (hi : Inv W) (hl : ∀ l < W.nLinks, 0 ≤ W.L.length l ∧ 0 < W.L.u l) (o d : NodeId) :
    ((∀ ls, PathFrom W.L o ls → pathEnd W.L o ls = d → (∀ l ∈ ls, W.Counted W.linkTime l) →
        W.freeTime o d ≤ ((costSum W.linkTime ls : ℚ) : WithTop ℚ)) ∧
      ∀ q : ℚ, W.freeTime o d = (q : WithTop ℚ) → ∃ ls, PathFrom W.L o ls ∧ pathEnd W.L o ls = d ∧
        (∀ l ∈ ls, W.Counted W.linkTime l) ∧ costSum W.linkTime ls = q) ∧
    (∀ ls, PathFrom W.L o ls → pathEnd W.L o ls = d → (∀ l ∈ ls, W.Counted W.L.length l) →
        W.freeDist o d ≤ ((costSum W.L.length ls : ℚ) : WithTop ℚ)) ∧
      ∀ q : ℚ, W.freeDist o d = (q : WithTop ℚ) → ∃ ls, PathFrom W.L o ls ∧ pathEnd W.L o ls = d ∧
        (∀ l ∈ ls, W.Counted W.L.length l) ∧ costSum W.L.length ls = q :=
  ⟨floyd_links (f := W.linkTime) (fun l h => div_nonneg (hl l h).1 (hl l h).2.le)
      (fun l h => (hi.s.ends_lt l h).2) o d,
    floyd_links (f := W.L.length) (fun l h => (hl l h).1) (fun l h => (hi.s.ends_lt l h).2) o d⟩

/-- No two links join the same nodes in the same direction, all links are open and longer than 0. -/
def World.Plain (W : World) : Prop :=
  (∀ l k, l < W.nLinks → k < W.nLinks → W.L.startN l = W.L.startN k → W.L.endN l = W.L.endN k → l = k) ∧
  ∀ l < W.nLinks, W.L.capIn l ≠ 0 ∧ 0 < W.L.length l

theorem World.Plain.last {W : World} (h : W.Plain) {l : LinkId} (hl : l < W.nLinks) : W.LastOf l :=
  ⟨hl, fun k hk hkn hs he => (Nat.ne_of_lt hk) (h.1 l k hl hkn hs.symm he.symm)⟩

/-- Free-flow time reported for the pair of `v`, as a number. -/
def World.freeOf (W : World) (v : VehId) : ℚ := (W.freeTime (W.V.orig v) ((W.V.dest v).getD 0)).untopD 0

/-- C66 for plain networks: the free-flow time and distance reported for a finished vehicle are finite
and at most its travel time and the length of the links it travelled. Missing: parallel links and
links closed at the time of the analysis, see `C66_false`. -/
theorem C66_free_partial {u0 : LinkId → ℚ} {W : World} (h : Reachable (ExactOK u0) W) (hp : W.Plain)
    {v : VehId} (hv : W.V.state v = .ended) :
    ∃ d, W.V.dest v = some d ∧ W.freeTime (W.V.orig v) d = ((W.freeOf v : ℚ) : WithTop ℚ) ∧
      W.freeOf v ≤ W.V.travelTime v ∧
      W.freeDist (W.V.orig v) d ≤ ((costSum W.L.length (travelled v W.trace) : ℚ) : WithTop ℚ) := by
  obtain ⟨h1, h2, h3, h4⟩ := C66_trip h hv
  have hok : ExactOK u0 W := h.ok
  have hu : ∀ l < W.nLinks, 0 < W.L.u l := fun l hl => by rw [(hok.u l hl).1]; exact (hok.u l hl).2
  obtain ⟨⟨a1, -⟩, a3, -⟩ := C66_least h.inv (fun l hl => ⟨(hp.2 l hl).2.le, hu l hl⟩)
    (W.V.orig v) (pathEnd W.L (W.V.orig v) (travelled v W.trace))
  have b1 := a1 _ h1 rfl fun l hl => ⟨hp.last (h3 l hl), (hp.2 l (h3 l hl)).1,
    div_pos (hp.2 l (h3 l hl)).2 (hu l (h3 l hl))⟩
  have b2 := a3 _ h1 rfl fun l hl => ⟨hp.last (h3 l hl), hp.2 l (h3 l hl)⟩
  obtain ⟨q, hq⟩ := WithTop.ne_top_iff_exists.mp (ne_top_of_le_ne_top WithTop.coe_ne_top b1)
  have hfo : W.freeOf v = q := by
    unfold freeOf; rw [h2, Option.getD_some, ← hq]; rfl
  refine ⟨_, h2, by rw [hfo, hq], ?_, b2⟩
  have hcs : costSum W.linkTime (travelled v W.trace) =
      costSum (fun l => W.L.length l / u0 l) (travelled v W.trace) := by
    unfold costSum
    congr 1
    refine List.map_congr_left fun l hl => ?_
    unfold linkTime
    rw [(hok.u l (h3 l hl)).1]
  rw [hfo]
  rw [← hq, hcs] at b1
  exact le_trans (WithTop.coe_le_coe.mp b1) h4

theorem sum_coe_bot {α : Type} (l : List α) (g : α → ℚ) :
    (l.map fun x => ((g x : ℚ) : WithBot ℚ)).sum = (((l.map g).sum : ℚ) : WithBot ℚ) := by
  induction l with
  | nil => rfl
  | cons a l ih => rw [List.map_cons, List.sum_cons, ih, List.map_cons, List.sum_cons, WithBot.coe_add]

theorem zipWith_map_same {α β γ δ : Type} (g : β → γ → δ) (a : α → β) (b : α → γ) (l : List α) :
    List.zipWith g (l.map a) (l.map b) = l.map fun x => g (a x) (b x) := by
  induction l with
  | nil => rfl
  | cons x l ih => simp [ih]

/-- If the reported free-flow times are finite, `total_delay` is the sum over the finished vehicles of
travel time minus free-flow time. -/
theorem delays_eq {W : World} (h : Reachable Any W) (hfl : FlOK W.cfg.fl) (hdt : 0 ≤ W.dt)
    (hu : ∀ l < W.nLinks, W.L.u l ≠ 0)
    (hf : ∀ v ∈ W.finished, ∀ d, W.V.dest v = some d →
      W.freeTime (W.V.orig v) d = ((W.freeOf v : ℚ) : WithTop ℚ)) (hdn : W.dn ≠ 0) (hne : W.finished ≠ []) :
    W.delays = .ok
      { total := ((W.dn * (W.finished.map fun v => W.V.travelTime v - W.freeOf v).sum : ℚ) : WithBot ℚ)
        average := (((W.finished.map fun v => W.V.travelTime v - W.freeOf v).sum / W.finished.length : ℚ) : WithBot ℚ) } := by
  have hS := odStats_spec W
  have hcomp := (basic_sums W).2.1
  have hfin := finished_eq h hfl hdt
  rw [hfin] at hcomp
  have hl : W.finished.length ≠ 0 := by rwa [Ne, List.length_eq_zero_iff]
  have hcne : (W.odRows.map (·.comp)).sum ≠ 0 := by rw [hcomp]; exact Nat.mul_ne_zero hdn hl
  have hz : (List.range W.nLinks).any (fun l => decide (W.L.u l = 0)) = false := by
    rw [List.any_eq_false]
    intro l hl'
    simpa using hu l (List.mem_range.mp hl')
  have key : (List.zipWith rowDelay W.odRows W.odFree).sum =
      ((W.dn * (W.finished.map fun v => W.V.travelTime v - W.freeOf v).sum : ℚ) : WithBot ℚ) := by
    unfold odRows odFree
    dsimp only
    rw [zipWith_map_same]
    generalize W.odStats = S at hS
    have hrow : ∀ k ∈ S.trips.keys, rowDelay
        { orig := k.1, dest := k.2, total := S.trips.val k, comp := S.comp.val k
          ttAve := if k ∈ S.tt.keys then average (S.tt.val k) else 0
          distAve := if k ∈ S.tt.keys then average (S.dist.val k) else 0 }
        { orig := k.1, dest := k.2
          time := if k ∈ S.tt.keys then W.freeTime k.1 k.2 else 0
          dist := if k ∈ S.tt.keys then W.freeDist k.1 k.2 else 0 } =
        ((W.dn * (((List.range W.nVeh).filter fun v => decide (W.odDone v = some k)).map
          fun v => W.V.travelTime v - W.freeOf v).sum : ℚ) : WithBot ℚ) := by
      intro k _
      have hgrp : ∀ v, W.odDone v = some k → v < W.nVeh → W.freeTime k.1 k.2 = ((W.freeOf v : ℚ) : WithTop ℚ) := by
        intro v hv hlt
        have hmem : v ∈ W.finished := by
          rw [← hfin, List.mem_filter]; exact ⟨List.mem_range.mpr hlt, by rw [hv]; rfl⟩
        have ho := odDone_of hv
        unfold odOf at ho
        cases hd : W.V.dest v with
        | none => rw [hd] at ho; cases ho
        | some d =>
          rw [hd] at ho
          simp only [Option.map_some, Option.some.injEq] at ho
          rw [← ho]
          exact hf v hmem d hd
      unfold rowDelay
      by_cases hk : k ∈ S.tt.keys
      · simp only [if_pos hk]
        obtain ⟨v0, hv0, he0⟩ := (hS.ttmem k).1 hk
        have hq := hgrp v0 he0 (List.mem_range.mp hv0)
        rw [hq]
        have hsame : ∀ v ∈ (List.range W.nVeh).filter fun v => decide (W.odDone v = some k),
            W.freeOf v = W.freeOf v0 := by
          intro v hv
          obtain ⟨hv1, hv2⟩ := List.mem_filter.mp hv
          have := hgrp v (by simpa using hv2) (List.mem_range.mp hv1)
          rw [hq] at this
          exact (WithTop.coe_eq_coe.mp this).symm
        show ((_ : ℚ) : WithBot ℚ) = _
        refine congrArg _ ?_
        rw [hS.comp, hS.tt]
        have hne' : (((List.range W.nVeh).filter fun v => decide (W.odDone v = some k)).length : ℚ) ≠ 0 := by
          have : v0 ∈ (List.range W.nVeh).filter fun v => decide (W.odDone v = some k) := by simp_all
          exact Nat.cast_ne_zero.2 (by rw [Ne, List.length_eq_zero_iff]; exact List.ne_nil_of_mem this)
        have hsum : (((List.range W.nVeh).filter fun v => decide (W.odDone v = some k)).map
            fun v => W.V.travelTime v - W.freeOf v).sum =
            (((List.range W.nVeh).filter fun v => decide (W.odDone v = some k)).map W.V.travelTime).sum -
            ((List.range W.nVeh).filter fun v => decide (W.odDone v = some k)).length * W.freeOf v0 := by
          rw [List.map_congr_left (g := fun v => W.V.travelTime v - W.freeOf v0)
            (fun v hv => by rw [hsame v hv])]
          generalize (List.range W.nVeh).filter (fun v => decide (W.odDone v = some k)) = xs
          induction xs with
          | nil => simp
          | cons x xs ih =>
            simp only [List.map_cons, List.sum_cons, List.length_cons, ih]
            push_cast; ring
        rw [hsum]
        unfold average
        rw [List.length_map]
        push_cast
        field_simp
      · simp only [if_neg hk]
        have hnil : ((List.range W.nVeh).filter fun v => decide (W.odDone v = some k)) = [] := by
          rw [List.filter_eq_nil_iff]
          intro v hv he
          exact hk ((hS.ttmem k).2 ⟨v, hv, by simpa using he⟩)
        show ((_ : ℚ) : WithBot ℚ) = _
        refine congrArg _ ?_
        rw [hnil, hS.comp, hnil]; simp
    rw [List.map_congr_left hrow, sum_coe_bot]
    refine congrArg _ ?_
    rw [List.sum_map_mul_left, sum_group W.odDone _ _ hS.nodup]
    congr 3
    rw [← hfin]
    refine List.filter_congr fun v hv => ?_
    rw [Bool.eq_iff_iff, decide_eq_true_eq, Option.isSome_iff_exists]
    exact ⟨fun ⟨k, _, hk⟩ => ⟨k, hk⟩, fun ⟨k, hk⟩ => ⟨k, (hS.mem k).2 ⟨v, hv, odDone_of hk⟩, hk⟩⟩
  unfold delays
  rw [hz]
  simp only [Bool.false_eq_true, if_false]
  rw [if_pos hcne, key, hcomp]
  refine congrArg _ ?_
  have a : (W.dn : ℚ) ≠ 0 := by exact_mod_cast hdn
  have b : (W.finished.length : ℚ) ≠ 0 := by exact_mod_cast hl
  rw [Delays.mk.injEq]
  refine ⟨rfl, ?_⟩
  show ((_ : ℚ) : WithBot ℚ) = _
  refine congrArg _ ?_
  push_cast
  field_simp

/-- C66 for plain networks: total and average delay are the sum and the mean, over the finished
vehicles, of travel time minus free-flow time, and not negative. Missing: see `C66_false`. -/
theorem C66_delay_partial {u0 : LinkId → ℚ} {W : World} (h : Reachable (ExactOK u0) W) (hp : W.Plain)
    (hdn : W.dn ≠ 0) (hne : W.finished ≠ []) :
    ∃ D, W.delays = .ok D ∧
      D.total = ((W.dn * (W.finished.map fun v => W.V.travelTime v - W.freeOf v).sum : ℚ) : WithBot ℚ) ∧
      D.average = (((W.finished.map fun v => W.V.travelTime v - W.freeOf v).sum / W.finished.length : ℚ) : WithBot ℚ) ∧
      0 ≤ D.total ∧ 0 ≤ D.average := by
  have hok : ExactOK u0 W := h.ok
  have hst : ∀ v ∈ W.finished, W.V.state v = .ended := fun v hv => by
    unfold finished at hv; simpa using (List.mem_filter.mp hv).2
  have hfr : ∀ v ∈ W.finished, 0 ≤ W.V.travelTime v - W.freeOf v := fun v hv => by
    obtain ⟨d, -, -, h3, -⟩ := C66_free_partial h hp (hst v hv)
    linarith
  have hsum : 0 ≤ (W.finished.map fun v => W.V.travelTime v - W.freeOf v).sum := by
    refine List.sum_nonneg fun q hq => ?_
    obtain ⟨v, hv, rfl⟩ := List.mem_map.mp hq
    exact hfr v hv
  refine ⟨_, delays_eq (h.mono fun _ _ => trivial) hok.phys.fl hok.phys.dt
    (fun l hl => by rw [(hok.u l hl).1]; exact (hok.u l hl).2.ne') ?_ hdn hne, rfl, rfl, ?_, ?_⟩
  · intro v hv d hd
    obtain ⟨d', h1, h2, -⟩ := C66_free_partial h hp (hst v hv)
    rw [hd] at h1
    obtain rfl : d = d' := by simpa using h1
    exact h2
  · exact WithBot.coe_le_coe.mpr (mul_nonneg (Nat.cast_nonneg _) hsum)
  · exact WithBot.coe_le_coe.mpr (div_nonneg hsum (Nat.cast_nonneg _))

/-- C66: if nobody has finished, -1 is reported. -/
theorem C66_nobody {W : World} (h : Reachable Any W) (hfl : FlOK W.cfg.fl) (hdt : 0 ≤ W.dt)
    (hu : ∀ l < W.nLinks, W.L.u l ≠ 0) (hne : W.finished = []) :
    W.delays = .ok { total := ((-1 : ℚ) : WithBot ℚ), average := ((-1 : ℚ) : WithBot ℚ) } := by
  have hcomp := (basic_sums W).2.1
  rw [finished_eq h hfl hdt, hne] at hcomp
  have hz : (List.range W.nLinks).any (fun l => decide (W.L.u l = 0)) = false := by
    rw [List.any_eq_false]
    intro l hl'
    simpa using hu l (List.mem_range.mp hl')
  unfold delays
  rw [hz]
  simp only [Bool.false_eq_true, if_false]
  rw [if_neg (by rw [hcomp]; simp)]

/-! ## Witnesses -/

/-- Links of 200 m and 2000 m from `a` to `b`, the longer one added last; a vehicle that prefers the
shorter one. -/
def twoWays (k : ℕ) : List Cmd :=
  [.node { name := "a" }, .node { name := "b" },
   .link { name := some "p", startN := .obj 0, endN := .obj 1, length := 200 },
   .link { name := some "q", startN := .obj 0, endN := .obj 1, length := 2000 },
   .veh { orig := .obj 0, dest := some (.obj 1), dep := .step 0, linksPrefer := [.obj 0] },
   .fin (some 300)] ++ List.replicate k .tick

set_option maxRecDepth 100000 in
/-- The hypotheses of the C66 theorems are met: three vehicles have finished, one of them was held up
by 10 s, the reported delay is 50 s for platoons of 5. -/
example : ∃ W, Reachable (ExactOK fun _ => 20) W ∧ W.Plain ∧ W.dn ≠ 0 ∧ W.finished = [0, 1, 2] ∧
    W.finished.map W.V.travelTime = [20, 30, 20] ∧ W.finished.map W.freeOf = [20, 20, 20] ∧
    travelled 1 W.trace = [0, 1] ∧ W.freeDist 0 2 = ((400 : ℚ) : WithTop ℚ) ∧
    W.delays = .ok { total := ((50 : ℚ) : WithBot ℚ), average := ((10 / 3 : ℚ) : WithBot ℚ) } := by
  have h : obs (runChecked physCheck demoCfg (fun _ => 0) (demo2 8)) (fun W => decide (
      W.nLinks = 2 ∧ W.L.startN 0 = 0 ∧ W.L.startN 1 = 1 ∧ W.L.capIn 0 ≠ 0 ∧ W.L.capIn 1 ≠ 0 ∧
      0 < W.L.length 0 ∧ 0 < W.L.length 1 ∧ W.dn ≠ 0 ∧ W.finished = [0, 1, 2] ∧
      W.finished.map W.V.travelTime = [20, 30, 20] ∧ W.finished.map W.freeOf = [20, 20, 20] ∧
      travelled 1 W.trace = [0, 1] ∧ W.freeDist 0 2 = ((400 : ℚ) : WithTop ℚ)) &&
      (match W.delays with
        | .ok D => decide (D = { total := ((50 : ℚ) : WithBot ℚ), average := ((10 / 3 : ℚ) : WithBot ℚ) })
        | .error _ => false)) = true := by
    decide +kernel
  obtain ⟨W, h1, h2⟩ := obs_ok h
  simp only [Bool.and_eq_true, decide_eq_true_eq] at h2
  obtain ⟨⟨n, s0, s1, c0, c1, p0, p1, hdn, f1, f2, f3, f4, f5⟩, hD⟩ := h2
  have two : ∀ l : ℕ, l < W.nLinks → l = 0 ∨ l = 1 := fun l hl => by omega
  refine ⟨W, (runChecked_reachable' (fun W hc hp => physCheck_ok hc hp) h1).mono fun _ h => h.1, ⟨?_, ?_⟩, hdn,
    f1, f2, f3, f4, f5, ?_⟩
  · intro l k hl hk hs _
    rcases two l hl with rfl | rfl <;> rcases two k hk with rfl | rfl
    · rfl
    · rw [s0, s1] at hs; cases hs
    · rw [s0, s1] at hs; cases hs
    · rfl
  · intro l hl
    rcases two l hl with rfl | rfl
    · exact ⟨c0, p0⟩
    · exact ⟨c1, p1⟩
  · split at hD
    · rename_i D hD'
      rw [hD', of_decide_eq_true hD]
    · cases hD

set_option maxRecDepth 100000 in
/-- C66 is false of the code. Of parallel links the last one added is used, not the fastest one: a
vehicle that took 10 s on the shorter of two links has a delay of -90 s. A link closed by the time of the
analysis counts as impassable for all finished trips: the delay is minus infinity. -/
theorem C66_false :
    (∃ W, Reachable (ExactOK fun _ => 20) W ∧ W.finished = [0] ∧ W.V.travelTime 0 = 10 ∧
      W.L.length 0 / W.L.u 0 = 10 ∧ W.freeTime 0 1 = ((100 : ℚ) : WithTop ℚ) ∧
      W.delays = .ok { total := ((-450 : ℚ) : WithBot ℚ), average := ((-90 : ℚ) : WithBot ℚ) }) ∧
    ∃ W, Reachable (ExactOK fun _ => 20) W ∧ W.finished = [0, 1, 2] ∧
      W.delays = .ok { total := ⊥, average := ⊥ } := by
  constructor
  · have h : obs (runChecked physCheck demoCfg (fun _ => 0) (twoWays 8)) (fun W => decide (
        W.finished = [0] ∧ W.V.travelTime 0 = 10 ∧
        W.L.length 0 / W.L.u 0 = 10 ∧ W.freeTime 0 1 = ((100 : ℚ) : WithTop ℚ)) &&
        (match W.delays with
          | .ok D => decide (D = { total := ((-450 : ℚ) : WithBot ℚ), average := ((-90 : ℚ) : WithBot ℚ) })
          | .error _ => false)) = true := by
      decide +kernel
    obtain ⟨W, h1, h2⟩ := obs_ok h
    simp only [Bool.and_eq_true, decide_eq_true_eq] at h2
    obtain ⟨⟨f1, f2, f3, f4⟩, hD⟩ := h2
    refine ⟨W, (runChecked_reachable' (fun W hc hp => physCheck_ok hc hp) h1).mono fun _ h => h.1,
      f1, f2, f3, f4, ?_⟩
    split at hD
    · rename_i D hD'
      rw [hD', of_decide_eq_true hD]
    · cases hD
  · have h : obs (runChecked physCheck demoCfg (fun _ => 0) (demo2 8 ++ [.capIn 0 0])) (fun W => decide (
        W.finished = [0, 1, 2]) &&
        (match W.delays with
          | .ok D => decide (D = { total := ⊥, average := ⊥ })
          | .error _ => false)) = true := by
      decide +kernel
    obtain ⟨W, h1, h2⟩ := obs_ok h
    simp only [Bool.and_eq_true, decide_eq_true_eq] at h2
    obtain ⟨f1, hD⟩ := h2
    refine ⟨W, (runChecked_reachable' (fun W hc hp => physCheck_ok hc hp) h1).mono fun _ h => h.1, f1, ?_⟩
    split at hD
    · rename_i D hD'
      rw [hD', of_decide_eq_true hD]
    · cases hD

end UX
