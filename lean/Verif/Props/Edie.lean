import Verif.Proofs.Trajs
import Verif.Props.Kinematics
import Verif.Props.Routes

/-! # Trajectories and traffic states (C55, C56) -/

namespace UX
open World

/-- C55: `compute_accurate_traj` never raises. The trajectories of a link are, vehicle by vehicle, the maximal
runs of consecutive log rows on the link, completed at both ends. -/
theorem C55_trajectories (W : World) (hdt : 0 ≤ W.dt) : ∃ ts, W.accurateTrajs = .ok ts ∧
    ∀ l, 0 < W.L.u l → ts l = (List.range W.nVeh).flatMap fun v =>
      (W.visits l v).map fun ps => ⟨W.V.name v, completed (W.L.u l) (W.L.length l) W.dt ps⟩ :=
  accurateTrajs_ok W hdt

/-- The setting of C55 and C56: exact arithmetic, free-flow speeds `u0` never changed, no link from a node to
itself, every step logged. -/
structure TrajOK (u0 : LinkId → ℚ) (W : World) : Prop where
  exact : ExactOK u0 W
  noLoop : ∀ l, l < W.nLinks → W.L.startN l ≠ W.L.endN l
  log : W.cfg.logInterval = 1
  single : ∀ v, v < W.nVeh → W.V.mode v = .single

theorem TrajOK.rows {u0} {OK : World → Prop} (hO : ∀ W, OK W → TrajOK u0 W) {W : World} (h : Reachable OK W) :
    RowsI u0 W :=
  RowsI.reach (OK := fun W => OK W ∧ NoStale W)
    (fun W h => ⟨(hO W h.1).exact, h.2, (hO W h.1).noLoop, (hO W h.1).log⟩)
    (h.strengthen fun W h => NoStale.of_single h (hO W h.ok).single)

/-- C55: every trajectory stays in time and space inside the link, never goes backward and is never faster
than the free-flow speed. -/
theorem C55_good {u0 : LinkId → ℚ} {OK : World → Prop} (hO : ∀ W, OK W → TrajOK u0 W) {W : World}
    (h : Reachable OK W) {ts : LinkId → List Traj} (ht : W.accurateTrajs = .ok ts) {l : LinkId}
    (hl : l < W.nLinks) {τ : Traj} (hτ : τ ∈ ts l) : GoodTraj (W.L.u l) (W.L.length l) τ.pts := by
  have hok := (hO W h.ok).exact
  have hu := hok.u l hl
  have hdt : 0 ≤ W.dt := hok.phys.dt
  obtain ⟨ts', h1, h2⟩ := accurateTrajs_ok W hdt
  obtain rfl : ts' = ts := by rw [ht] at h1; cases h1; rfl
  rw [h2 l (by rw [hu.1]; exact hu.2), List.mem_flatMap] at hτ
  obtain ⟨v, -, hτ⟩ := hτ
  obtain ⟨ps, hps, rfl⟩ := List.mem_map.1 hτ
  exact (TrajOK.rows hO h).traj_good hdt hu.1 hu.2 hps

/-- C55: the trajectory of a stay on link `l` after which the vehicle went on to another link covers the link
up to a hundredth of a step's distance at each end. All stays but the last one are such, and the last one
too if the vehicle was last logged on another link. -/
theorem C55_covers {u0 : LinkId → ℚ} {OK : World → Prop} (hO : ∀ W, OK W → TrajOK u0 W) {W : World}
    (h : Reachable OK W) {l : LinkId} (hl : l < W.nLinks) {v : VehId} {ps : List (ℚ × ℚ)}
    (hps : ps ∈ (W.visits l v).dropLast ∨ ps ∈ W.visits l v ∧ W.hasLeft l v) :
    W.L.length l - W.L.u l * W.dt / 50 ≤ covered (completed (W.L.u l) (W.L.length l) W.dt ps) := by
  have hok := (hO W h.ok).exact
  have hu := hok.u l hl
  have hdt : 0 ≤ W.dt := hok.phys.dt
  have hR := TrajOK.rows hO h
  have key := passed_run (l := l) _ (fun r hr => (List.mem_filter.1 hr).2) (hR.chain v)
  have hmem : ∃ run : List (ℚ × ℚ), ps = run.reverse ∧ ∃ p ∈ run.head?, W.L.length l - u0 l * W.cfg.deltat ≤ p.2 := by
    unfold World.visits at hps
    rw [List.dropLast_reverse, List.mem_reverse, List.mem_reverse] at hps
    rcases hps with hps | ⟨hps, hleft⟩
    · rw [← List.map_tail, List.mem_map] at hps
      obtain ⟨run, hrun, rfl⟩ := hps
      refine ⟨run, rfl, key run ?_⟩
      split
      · exact hrun
      · exact List.mem_of_mem_tail hrun
    · rw [List.mem_map] at hps
      obtain ⟨run, hrun, rfl⟩ := hps
      refine ⟨run, rfl, key run ?_⟩
      rw [if_neg]
      · exact hrun
      · intro e
        cases hh : ((W.V.log v).filter (·.link.isSome)).head? with
        | none => rw [hh] at e; cases e
        | some r => rw [hh] at e; exact hleft r hh e
  obtain ⟨run, rfl, p, hp, hx⟩ := hmem
  rw [Option.mem_def] at hp
  have hne : run ≠ [] := by rintro rfl; cases hp
  obtain ⟨q, hq⟩ : ∃ q, run.getLast? = some q := ⟨_, List.getLast?_eq_some_getLast hne⟩
  refine completed_covered (by rw [hu.1]; exact hu.2) hdt (p := q) (q := p) ?_ ?_ ?_
  · rw [List.head?_reverse]; exact hq
  · rw [List.getLast?_reverse]; exact hp
  · rw [hu.1]; exact hx

/-- C56: `compute_edie_state` never raises. The distance and the time of a cell are `DELTAN` times the
distances driven and the times spent there, segment by segment of the trajectories; a segment counts for the
time interval in which it begins. -/
theorem C56_cells {u0 : LinkId → ℚ} {OK : World → Prop} (hO : ∀ W, OK W → TrajOK u0 W) {W : World}
    (h : Reachable OK W) {l : LinkId} (hl : l < W.nLinks) {tmax edt edx : ℚ} (hedt : 0 < edt) (hedx : 0 < edx) :
    ∃ m ts, W.edieState tmax edt edx l = .ok m ∧ W.accurateTrajs = .ok ts ∧
      (m.nt = (pyInt (tmax / edt)).toNat ∧ m.nx = (pyInt (W.L.length l / edx)).toNat) ∧
      ∀ i j, i < m.nt → j < m.nx →
        m.dn i j = W.dn * ((ts l).map fun τ => alongPairs (segDist edt edx i j) τ.pts).sum ∧
        m.tn i j = W.dn * ((ts l).map fun τ => alongPairs (segTime edt edx i j) τ.pts).sum ∧
        m.k i j = m.tn i j / edt / edx ∧ m.q i j = m.dn i j / edt / edx := by
  obtain ⟨ts, ht, -⟩ := accurateTrajs_ok W (hO W h.ok).exact.phys.dt
  obtain ⟨m, h1, h2, h3, h4⟩ := edieMats_ok (u := W.L.u l) (len := W.L.length l) (tmax := tmax) hedt hedx W.dn
    (ts := ts l) (fun τ hτ => C55_good hO h ht hl hτ)
  refine ⟨m, ts, ?_, ht, ⟨h2, h3⟩, fun i j hi hj => ⟨h4.dn i j hi hj, h4.tn i j hi hj, h4.k i j, h4.q i j⟩⟩
  unfold World.edieState
  rw [ht]; exact h1

theorem edieState_inv {u0 : LinkId → ℚ} {OK : World → Prop} (hO : ∀ W, OK W → TrajOK u0 W) {W : World}
    (h : Reachable OK W) {l : LinkId} (hl : l < W.nLinks) {tmax edt edx : ℚ} (hedt : 0 < edt) (hedx : 0 < edx)
    {m : EdieMats} (hm : W.edieState tmax edt edx l = .ok m) :
    ∃ ts, W.accurateTrajs = .ok ts ∧ EdieOK (W.L.u l) edt edx W.dn (ts l) m := by
  obtain ⟨ts, ht, -⟩ := accurateTrajs_ok W (hO W h.ok).exact.phys.dt
  obtain ⟨m', h1, -, -, h4⟩ := edieMats_ok (u := W.L.u l) (len := W.L.length l) (tmax := tmax) hedt hedx W.dn
    (ts := ts l) (fun τ hτ => C55_good hO h ht hl hτ)
  refine ⟨ts, ht, ?_⟩
  unfold World.edieState at hm
  rw [ht] at hm
  obtain rfl : m' = m := by
    have := h1.symm.trans hm
    cases this; rfl
  exact h4

/-- C56: in every cell density and flow are not negative, flow is density times speed, and the speed is
between 0 and the free-flow speed; an empty cell has no flow and the free-flow speed. -/
theorem C56_bounds {u0 : LinkId → ℚ} {OK : World → Prop} (hO : ∀ W, OK W → TrajOK u0 W) {W : World}
    (h : Reachable OK W) {l : LinkId} (hl : l < W.nLinks) {tmax edt edx : ℚ} (hedt : 0 < edt) (hedx : 0 < edx)
    {m : EdieMats} (hm : W.edieState tmax edt edx l = .ok m) {i j : ℕ} (hi : i < m.nt) (hj : j < m.nx) :
    0 ≤ m.k i j ∧ 0 ≤ m.q i j ∧ m.q i j = m.k i j * m.v i j ∧ 0 ≤ m.v i j ∧ m.v i j ≤ W.L.u l ∧
      (m.k i j = 0 → m.q i j = 0 ∧ m.v i j = W.L.u l) := by
  have hu := (hO W h.ok).exact.u l hl
  obtain ⟨ts, ht, h4⟩ := edieState_inv hO h hl hedt hedx hm
  obtain ⟨b1, b2, b3, b4, b5, b6⟩ := h4.bounds (by rw [hu.1]; exact hu.2.le) hedt hedx
    (fun τ hτ => C55_good hO h ht hl hτ) hi hj
  refine ⟨b1, b2, b4, b5, b6, fun hk => ?_⟩
  have hq : m.q i j = 0 := by rw [b4, hk, zero_mul]
  exact ⟨hq, by rw [h4.v i j, if_pos ⟨hk, hq⟩]⟩

/-- C56: if the space cells divide the link and no trajectory goes past the last time interval, the distances
of all cells add up to `DELTAN` times the distances covered by the trajectories. -/
theorem C56_total {u0 : LinkId → ℚ} {OK : World → Prop} (hO : ∀ W, OK W → TrajOK u0 W) {W : World}
    (h : Reachable OK W) {l : LinkId} (hl : l < W.nLinks) {tmax edt edx : ℚ} (hedt : 0 < edt) (hedx : 0 < edx)
    {m : EdieMats} {ts : LinkId → List Traj} (hm : W.edieState tmax edt edx l = .ok m)
    (ht : W.accurateTrajs = .ok ts) (hnx : m.nx * edx = W.L.length l)
    (hlate : ∀ τ ∈ ts l, ∀ p ∈ τ.pts, p.1 < m.nt * edt) :
    cellSum m.nt m.nx m.dn = W.dn * ((ts l).map fun τ => covered τ.pts).sum := by
  obtain ⟨ts', ht', h4⟩ := edieState_inv hO h hl hedt hedx hm
  obtain rfl : ts' = ts := by rw [ht] at ht'; cases ht'; rfl
  exact h4.total hedt hedx hnx (fun τ hτ => C55_good hO h ht hl hτ) hlate

def trajCheck (W : World) : Bool :=
  physCheck W && decide (∀ l < W.nLinks, W.L.startN l ≠ W.L.endN l)

theorem trajCheck_ok {W : World} (hc : W.cfg = demoCfg) (h : trajCheck W = true) : TrajOK (fun _ => 20) W := by
  unfold trajCheck at h
  rw [Bool.and_eq_true, decide_eq_true_eq] at h
  have hp := physCheck_ok hc h.1
  exact ⟨hp.1, h.2, by rw [hc]; rfl, hp.2⟩

set_option maxRecDepth 100000 in
/-- The hypotheses of C55 and C56 are met, with completed trajectories and a cell in which traffic is slower
than free flow. -/
example : ∃ W ts m, Reachable (TrajOK fun _ => 20) W ∧ 0 < W.nLinks ∧ W.accurateTrajs = .ok ts ∧
    W.edieState 300 60 100 0 = .ok m ∧ (ts 0).length = 5 ∧
    (ts 0)[1]? = some ⟨"1", [(10, 0), (15, 75), (20, 175), (85/4, 200)]⟩ ∧
    W.visits 0 1 = [[(10, 0), (15, 75), (20, 175)]] ∧ W.hasLeft 0 1 ∧
    m.nt = 5 ∧ m.nx = 2 ∧ (m.nx : ℚ) * 100 = W.L.length 0 ∧
    (∀ τ ∈ ts 0, ∀ p ∈ τ.pts, p.1 < m.nt * 60) ∧
    m.k 0 0 = 1/40 ∧ m.q 0 0 = 5/12 ∧ m.v 0 0 = 50/3 ∧ m.dn 0 0 + m.dn 0 1 = 5 * 1000 := by
  have h : obs (runChecked trajCheck demoCfg (fun _ => 0) (demo2 12)) (fun W =>
      obs W.accurateTrajs (fun ts => obs (W.edieState 300 60 100 0) (fun m =>
        decide (0 < W.nLinks ∧ (ts 0).length = 5 ∧
          (ts 0)[1]? = some ⟨"1", [(10, 0), (15, 75), (20, 175), (85/4, 200)]⟩ ∧
          W.visits 0 1 = [[(10, 0), (15, 75), (20, 175)]]) &&
        decide ((((W.V.log 1).filter (·.link.isSome)).head?.map (·.link)) = some (some 1)) &&
        decide (m.nt = 5 ∧ m.nx = 2 ∧ (m.nx : ℚ) * 100 = W.L.length 0 ∧
          (∀ τ ∈ ts 0, ∀ p ∈ τ.pts, p.1 < m.nt * 60) ∧
          m.k 0 0 = 1/40 ∧ m.q 0 0 = 5/12 ∧ m.v 0 0 = 50/3 ∧ m.dn 0 0 + m.dn 0 1 = 5 * 1000)))) = true := by
    decide +kernel
  obtain ⟨W, h1, h⟩ := obs_ok h
  obtain ⟨ts, h2, h⟩ := obs_ok h
  obtain ⟨m, h3, h⟩ := obs_ok h
  simp only [Bool.and_eq_true] at h
  obtain ⟨⟨a, b⟩, c⟩ := h
  obtain ⟨a1, a2, a3, a4⟩ := of_decide_eq_true a
  have b := of_decide_eq_true b
  have hr := runChecked_reachable' (fun W hc hp => trajCheck_ok hc hp) h1
  refine ⟨W, ts, m, hr, a1, h2, h3, a2, a3, a4, fun r hr' => ?_, of_decide_eq_true c⟩
  rw [hr', Option.map_some, Option.some.injEq] at b
  rw [b]; decide

set_option maxRecDepth 100000 in
/-- C55 does not hold with a link from a node to itself: a vehicle that drove over link 1 six times has one
trajectory, which covers the link once. -/
theorem C55_self_loop_false : ∃ W ts, Reachable Any W ∧ W.accurateTrajs = .ok ts ∧
    travelled 0 W.trace = [0, 1, 1, 1, 1, 1, 1] ∧ W.L.length 1 = 100 ∧
    ((ts 1).map fun τ => covered τ.pts) = [100] := by
  have h : obs (runCmds demoCfg (fun _ => 0) (demo5 8)) (fun W => obs W.accurateTrajs (fun ts => decide (
      travelled 0 W.trace = [0, 1, 1, 1, 1, 1, 1] ∧ W.L.length 1 = 100 ∧
      ((ts 1).map fun τ => covered τ.pts) = [100]))) = true := by
    decide +kernel
  obtain ⟨W, h1, h⟩ := obs_ok h
  obtain ⟨ts, h2, h⟩ := obs_ok h
  exact ⟨W, ts, runCmds_reachable h1, h2, of_decide_eq_true h⟩

end UX
