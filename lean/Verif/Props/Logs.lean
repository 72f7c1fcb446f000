import Verif.Proofs.Logs
import Verif.Props.Trips
import Verif.Props.RouteChoice
import Mathlib.Tactic.FieldSimp
import Mathlib.Tactic.Ring

/-!
# Vehicle logs (C49) and the average speed (C38)
-/

namespace UX
open World Relation

/-! ## C49: one row per step -/

theorem ApiStep.log {W W' : World} (hr : Reachable Any W) (hs : ApiStep W W') {v : VehId}
    (hv : v < W.nVeh) :
    (W'.V.log v = W.V.log v ∧ (v ∈ W'.living ↔ v ∈ W.living) ∧ W'.T = W.T) ∨
    (W.finalized = true ∧ W.tick = .ok W' ∧ W'.T = W.T + 1) := by
  have hT0 := (T_le hr).2
  rcases hs.kinds with ⟨hf, a, ph, t, soff, hn, rfl⟩ | ⟨hf, a, ha⟩ | ⟨a, ha⟩ | ⟨hf, tm, rfl⟩ |
      ⟨hf, hT, ht⟩ | hs | hs
  · exact .inl ⟨rfl, Iff.rfl, rfl⟩
  · obtain ⟨s, e, nm, k, p, -, -, -, -, -, -, rfl⟩ := addLink_ok ha
    exact .inl ⟨rfl, Iff.rfl, rfl⟩
  · obtain ⟨o, d, dep, pref, cache, lp, la, nm, -, -, -, -, -, -, -, -, rfl⟩ := addVehicle_ok ha
    refine .inl ⟨upd_ne _ _ (Nat.ne_of_lt hv), ?_, rfl⟩
    show v ∈ W.living ++ [W.nVeh] ↔ _
    simp [Nat.ne_of_lt hv]
  · obtain ⟨ts, tta, fc, fr, la, h⟩ := finalize_frame W tm
    rw [h]
    exact .inl ⟨rfl, Iff.rfl, (hT0 hf).symm⟩
  · exact .inr ⟨hf, ht, (tick_frame hr.inv hf ht).1⟩
  · have := hs.static
    obtain ⟨_, _, _, _, _, _, _, rfl, _⟩ := hs
    exact .inl ⟨rfl, Iff.rfl, rfl⟩
  · obtain ⟨_, _, _, _, _, _, _, _, _, _, _, _, _, _, _, _, _, _, _, rfl, _⟩ := hs
    exact .inl ⟨rfl, Iff.rfl, rfl⟩

theorem stepTimes_succ (W : World) (a b : ℕ) (h : a ≤ b) :
    W.stepTimes a (b + 1) = W.stepTimes a b ++ [W.cfg.fl ((b : ℚ) * W.cfg.deltat)] := by
  unfold stepTimes
  rw [show b + 1 - a = (b - a) + 1 by omega, List.range'_concat, List.map_append]
  congr 2
  rw [List.map_singleton, show a + 1 * (b - a) = b by omega]

/-- Before the first step nothing is logged and every vehicle is living. -/
theorem log_start {W : World} (h : Reachable Any W) (hT : W.T = 0) :
    ∀ v, W.V.log v = [] ∧ (v < W.nVeh → v ∈ W.living) := by
  refine Reachable.induct (P := fun W => W.finalized = false ∨ W.T = 0 →
    ∀ v, W.V.log v = [] ∧ (v < W.nVeh → v ∈ W.living)) ?_ ?_ ?_ ?_ ?_ ?_ ?_ ?_ h (.inr hT)
  · intro cfg tmax rng _ v; exact ⟨rfl, fun h => absurd h (Nat.not_lt_zero _)⟩
  · intro W a ph t soff hi hf hn _ _ hP; exact hP
  · intro W W' a hi hf ha _ _ hP
    obtain ⟨s, e, nm, k, p, -, -, -, -, -, -, rfl⟩ := addLink_ok ha
    exact hP
  · intro W W' a hi ha _ _ hP hT
    obtain ⟨o, d, dep, pref, cache, lp, la, nm, -, -, -, -, -, -, -, -, rfl⟩ := addVehicle_ok ha
    intro v
    have := hP hT
    refine ⟨?_, fun hv => ?_⟩
    · show upd W.V.log W.nVeh [] v = []
      rw [upd_apply]; split
      · rfl
      · exact (this v).1
    · show v ∈ W.living ++ [W.nVeh]
      have hv : v < W.nVeh + 1 := hv
      rcases Nat.lt_succ_iff_lt_or_eq.1 hv with h | h
      · exact List.mem_append_left _ ((this v).2 h)
      · exact List.mem_append_right _ (by simp [h])
  · intro W tm hi hf _ _ hP hT v
    obtain ⟨ts, tta, fc, fr, la, hr⟩ := finalize_frame W tm
    have := hP (.inl hf) v
    rw [hr]; exact this
  · rintro W W' hi _ _ hs hP
    obtain ⟨_, _, _, _, _, _, _, rfl, _⟩ := hs
    exact hP
  · rintro W W' hi _ _ hs hP
    obtain ⟨_, _, _, _, _, _, _, _, _, _, _, _, _, _, _, _, _, _, _, rfl, _⟩ := hs
    exact hP
  · intro W W1 W' hi hf hlt _ _ h1 hW hP hT
    subst hW
    obtain ⟨W6, hs, rfl⟩ := step_star (hi.core hf) h1
    have e := hs.static
    rcases hT with hT | hT
    · have : W6.finalized = false := hT
      rw [e.finalized, hf] at this; cases this
    · exact absurd hT (Nat.succ_ne_zero _)

/-- Over any history a vehicle keeps its old log rows, and the settings stay. -/
theorem log_history {W W' : World} (h : Reachable Any W) (hs : ReflTransGen ApiStep W W')
    (h1 : W.cfg.logInterval = 1) {v : VehId} (hv : v < W.nVeh) :
    Reachable Any W' ∧ v < W'.nVeh ∧ W'.cfg = W.cfg ∧ W.V.log v <:+ W'.V.log v := by
  induction hs with
  | refl => exact ⟨h, hv, rfl, List.suffix_rfl⟩
  | @tail A B _ hs ih =>
    obtain ⟨hr, hvA, hcfg, hsuf⟩ := ih
    refine ⟨.next hr hs trivial, lt_of_lt_of_le hvA (nVeh_mono hr hs), (hs.cfg hr.inv).trans hcfg, ?_⟩
    refine hsuf.trans ?_
    rcases hs.log hr hvA with ⟨hl, _, _⟩ | ⟨hf, ht, _⟩
    · rw [hl]
    · have := tick_log (v := v) hr.inv hf (by rw [hcfg]; exact h1) ht
      by_cases hm : v ∈ B.living
      · obtain ⟨_, r, hr, _⟩ := this.alive hm
        rw [hr]; exact List.suffix_cons _ _
      · rcases this.gone hm with ⟨_, hl⟩ | ⟨_, e, _, _, hl | ⟨r, _, hl⟩⟩
        · rw [hl]
        · rw [hl]; exact List.suffix_cons _ _
        · rw [hl]; exact (List.suffix_cons _ _).trans (List.suffix_cons _ _)

/-- C49: a vehicle present before the first step has one log row for each executed step while it is
living, row `i` at time `i * Δt`; a finished vehicle has the rows of its life and one final row. -/
theorem C49_rows {W0 W : World} (h : Reachable Any W0) (hT : W0.T = 0) (hs : ReflTransGen ApiStep W0 W)
    (h1 : W0.cfg.logInterval = 1) {v : VehId} (hv : v < W0.nVeh) :
    (v ∈ W.living → W.logTimes v = W.stepTimes 0 W.T) ∧
    (v ∉ W.living → ∃ k e t, k < W.T ∧ W.V.log v = e :: t ∧ (e.state = .ended ∨ e.state = .abort) ∧
      (W.logTimes v = W.stepTimes 0 (k + 1) ∨
        W.logTimes v = W.stepTimes 0 (k + 1) ++ [W.cfg.fl ((k : ℚ) * W.cfg.deltat)])) := by
  have key : (v ∈ W.living → W.logTimes v = W.stepTimes 0 W.T) ∧
    (v ∉ W.living → ∃ k e t, k < W.T ∧ W.V.log v = e :: t ∧ (e.state = .ended ∨ e.state = .abort) ∧
      (W.logTimes v = W.stepTimes 0 (k + 1) ∨
        W.logTimes v = W.stepTimes 0 (k + 1) ++ [W.cfg.fl ((k : ℚ) * W.cfg.deltat)])) := by
    induction hs with
    | refl =>
      obtain ⟨hl, hlv⟩ := log_start h hT v
      refine ⟨fun _ => ?_, fun hn => absurd (hlv hv) hn⟩
      simp [logTimes, stepTimes, hl, hT]
    | @tail A B hp hs ih =>
      obtain ⟨hr, hvA, hcfg, -⟩ := log_history h hp h1 hv
      have hcB := hs.cfg hr.inv
      have hst : ∀ a b, B.stepTimes a b = A.stepTimes a b := by
        intro a b; unfold stepTimes; rw [hcB]
      rw [hcB]
      simp only [hst]
      rcases hs.log hr hvA with ⟨hl, hm, hTB⟩ | ⟨hf, ht, hTB⟩
      · have : B.logTimes v = A.logTimes v := by unfold logTimes; rw [hl]
        rw [this, hl, hTB, hm]; exact ih
      · have htl := tick_log (v := v) hr.inv hf (by rw [hcfg]; exact h1) ht
        have hnow : A.now = A.cfg.fl ((A.T : ℚ) * A.cfg.deltat) := rfl
        refine ⟨fun hm => ?_, fun hm => ?_⟩
        · obtain ⟨hA, r, hr, ht, _⟩ := htl.alive hm
          rw [hTB, stepTimes_succ _ _ _ (Nat.zero_le _), ← ih.1 hA, ← hnow, ← ht]
          unfold logTimes; rw [hr]; simp
        · rcases htl.gone hm with ⟨hA, hl⟩ | ⟨hA, e, het, hes, hl | ⟨r, hrt, hl⟩⟩
          · have : B.logTimes v = A.logTimes v := by unfold logTimes; rw [hl]
            obtain ⟨k, e, t, hk, h2⟩ := ih.2 hA
            rw [this, hl]
            exact ⟨k, e, t, by omega, h2⟩
          · refine ⟨A.T, e, _, by omega, hl, hes, .inl ?_⟩
            rw [stepTimes_succ _ _ _ (Nat.zero_le _), ← ih.1 hA, ← hnow, ← het]
            unfold logTimes; rw [hl]; simp
          · refine ⟨A.T, e, _, by omega, hl, hes, .inr ?_⟩
            rw [stepTimes_succ _ _ _ (Nat.zero_le _), ← ih.1 hA, ← hnow]
            unfold logTimes; rw [hl]; simp [het, hrt]
  exact key

/-- C49: after a step from `A` to `B`, the newest row of a running vehicle holds the link and the
position at which it started to drive in that step. -/
theorem C49_row {A B : World} (h : Reachable Any A) (hf : A.finalized = true)
    (h1 : A.cfg.logInterval = 1) (ht : A.tick = .ok B) {v : VehId} (hv : v ∈ B.living) :
    ∃ r, B.V.log v = r :: A.V.log v ∧ r.t = A.cfg.fl ((A.T : ℚ) * A.cfg.deltat) ∧
      (B.V.state v = .run → r.state = .run ∧ r.link = B.V.link v ∧ r.x = B.V.xOld v ∧ r.lane = B.V.lane v ∧
        ((∀ n l, Event.depart A.T v n l ∉ B.trace) → (∀ n a b ph, Event.pass A.T v n a b ph ∉ B.trace) →
          r.link = A.V.link v ∧ r.x = A.V.x v)) := by
  obtain ⟨_, r, hr, hrt, hrun, _⟩ := (tick_log (v := v) h.inv hf h1 ht).alive hv
  refine ⟨r, hr, hrt, fun hs => ?_⟩
  obtain ⟨a1, a2, a3, a4, a5⟩ := hrun hs
  refine ⟨a1, a2, a3, a4, fun k1 k2 => ?_⟩
  rcases a5 with a | ⟨n, l, a⟩ | ⟨n, a, b, ph, a'⟩
  · exact a
  · exact absurd a (k1 n l)
  · exact absurd a' (k2 n a b ph)

/-- C49 in exact arithmetic: `get_xy_coords(t)`, asked at any later point of the history for a time in
the step from `A` to `B`, gives the place where the vehicle was in that step, and `(-1, -1)` if it was
not on a link. -/
theorem C49_read {W0 A B W : World} (h : Reachable Any W0) (hT : W0.T = 0)
    (hsA : ReflTransGen ApiStep W0 A) (hf : A.finalized = true) (hlt : A.T < A.tsize) (ht : A.tick = .ok B)
    (hsB : ReflTransGen ApiStep B W) (h1 : W0.cfg.logInterval = 1) (hfl : W0.cfg.fl = id)
    (hdt : 0 < W0.dt) {v : VehId} (hv : v < W0.nVeh) (hlB : v ∈ B.living) {t : ℚ}
    (ht0 : A.T * W0.dt ≤ t) (ht1 : t < (A.T + 1) * W0.dt) :
    (B.V.state v = .run → ∃ l, B.V.link v = some l ∧ W.getXyAt v t = .ok (pointAt
      (W.N.x (W.L.startN l)) (W.N.y (W.L.startN l)) (W.N.x (W.L.endN l)) (W.N.y (W.L.endN l))
      (B.V.xOld v / W.L.length l))) ∧
    (B.V.state v ≠ .run → W.getXyAt v t = .ok (-1, -1)) := by
  obtain ⟨hrA, hvA, hcA, -⟩ := log_history h hsA h1 hv
  have hI1 : A.cfg.logInterval = 1 := by rw [hcA]; exact h1
  obtain ⟨hA, r, hr, hrt, hrun, hnr⟩ := (tick_log (v := v) hrA.inv hf hI1 ht).alive hlB
  have hsAB : ApiStep A B := .tick hf hlt ht
  have hlen : (A.V.log v).length = A.T := by
    have := congrArg List.length ((C49_rows h hT hsA h1 hv).1 hA)
    simpa [logTimes, stepTimes] using this
  obtain ⟨_, _, hcW, p, hp⟩ := log_history (.next hrA hsAB trivial) hsB
    (by rw [hsAB.cfg hrA.inv, hI1]) (lt_of_lt_of_le hvA (nVeh_mono hrA hsAB))
  have hcW0 : W.cfg = W0.cfg := hcW.trans ((hsAB.cfg hrA.inv).trans hcA)
  have hidx : pyInt (W.fl (W.fl (t / W.dt) / W.cfg.logInterval)) = A.T := by
    have hdt' : W.dt = W0.dt := by unfold World.dt; rw [hcW0]
    have hf1 : ∀ q, W.fl q = q := by intro q; unfold World.fl; rw [hcW0, hfl]; rfl
    rw [hf1, hf1, hcW0, h1, hdt']
    have hq0 : (A.T : ℚ) ≤ t / W0.dt := (le_div_iff₀ hdt).2 ht0
    have hq1 : t / W0.dt < A.T + 1 := (div_lt_iff₀ hdt).2 ht1
    have hq : t / W0.dt / ((1 : ℤ) : ℚ) = t / W0.dt := by simp
    rw [hq]
    unfold pyInt
    rw [if_pos (le_trans (Nat.cast_nonneg _) hq0), Int.floor_eq_iff]
    push_cast
    exact ⟨hq0, hq1⟩
  have hat : logAt (W.V.log v) (pyInt (W.fl (W.fl (t / W.dt) / W.cfg.logInterval))) = some r := by
    rw [hidx]
    unfold logAt
    rw [if_pos (Int.natCast_nonneg _), ← hp, hr]
    simp [hlen]
  unfold getXyAt
  rw [hat]
  dsimp only
  refine ⟨fun hs => ?_, fun hs => by rw [hnr hs]⟩
  obtain ⟨a1, a2, a3, a4, a5⟩ := hrun hs
  have hB : Reachable Any B := .next hrA hsAB trivial
  obtain ⟨l, hl⟩ : ∃ l, B.V.link v = some l := by
    exact Option.ne_none_iff_exists'.1 (hB.inv.s.run_link v hs)
  refine ⟨l, hl, ?_⟩
  rw [a2, hl]
  dsimp only
  have hf1 : ∀ q, W.fl q = q := by intro q; unfold World.fl; rw [hcW0, hfl]; rfl
  unfold linkXy pointAt
  simp only [hf1, a3]
  congr 2 <;> ring


/-! ## C38: the running mean speed -/

/-- Speed contributed by a log row. -/
def speedOf (r : LogRow) : Option ℚ :=
  match r.state with
  | .run => some r.v
  | .wait => some 0
  | _ => none

theorem flatMap_cons_perm {f g : ℕ → List ℚ} {v : ℕ} {a : ℚ} (hv : g v = a :: f v)
    (hne : ∀ u, u ≠ v → g u = f u) : ∀ n, v < n →
    List.Perm ((List.range n).flatMap g) (a :: (List.range n).flatMap f) := by
  have eq : ∀ n, n ≤ v → (List.range n).flatMap g = (List.range n).flatMap f := by
    intro n hn
    refine List.flatMap_congr fun u hu => hne u ?_
    have := List.mem_range.1 hu; omega
  intro n
  induction n with
  | zero => intro h; omega
  | succ n ih =>
    intro h
    rw [List.range_succ, List.flatMap_append, List.flatMap_append]
    by_cases hn : v = n
    · subst hn
      rw [eq v le_rfl]
      simp only [List.flatMap_cons, List.flatMap_nil, List.append_nil, hv]
      exact List.perm_middle
    · have := ih (by omega)
      have h2 : List.flatMap g [n] = List.flatMap f [n] := by
        simp [hne n (fun h => hn h.symm)]
      rw [h2]
      exact this.append_right _

/-- No log row of a waiting vehicle. -/
def World.NoWaitRow (W : World) : Prop := ∀ v, ∀ r ∈ W.V.log v, r.state ≠ .wait

/-- The average agrees with the logs, as long as no waiting vehicle was logged. -/
structure AvgInv (W : World) : Prop where
  start : W.finalized = false → ∀ v, W.V.log v = []
  fresh : ∀ v, W.nVeh ≤ v → W.V.log v = []
  count : W.finalized = true → W.avgCount = W.loggedSpeeds.length
  mean : W.finalized = true → W.cfg.fl = id → W.NoWaitRow → W.avgSpeed * W.avgCount = W.loggedSpeeds.sum

theorem AvgInv.congr {W W' : World} (h : AvgInv W) (h1 : W'.finalized = W.finalized)
    (h2 : W'.V.log = W.V.log) (h3 : W'.nVeh = W.nVeh) (h4 : W'.avgCount = W.avgCount)
    (h5 : W'.avgSpeed = W.avgSpeed) (h6 : W'.cfg = W.cfg) : AvgInv W' := by
  obtain ⟨a, b, c, d⟩ := h
  have hl : W'.loggedSpeeds = W.loggedSpeeds := by unfold loggedSpeeds; rw [h2, h3]
  constructor
  · rw [h1, h2]; exact a
  · rw [h2, h3]; exact b
  · rw [h1, h4, hl]; exact c
  · unfold NoWaitRow
    rw [h1, h2, h4, h5, h6, hl]; exact d

theorem loggedSpeeds_eq (W : World) :
    W.loggedSpeeds = (List.range W.nVeh).flatMap fun v => (W.V.log v).filterMap speedOf := rfl

/-- Writing one row. -/
theorem AvgInv.row {W W' : World} {v : VehId} (h : AvgInv W) (hf : W.finalized = true) (hv : v < W.nVeh)
    (r : LogRow) (h1 : W'.finalized = W.finalized) (h2 : W'.V.log = upd W.V.log v (r :: W.V.log v))
    (h3 : W'.nVeh = W.nVeh) (h6 : W'.cfg = W.cfg)
    (hrun : ∀ q, speedOf r = some q → W'.avgCount = W.avgCount + 1)
    (hmean : r.state = .run → W'.avgSpeed =
      W.fl (W.avgSpeed + W.fl (W.fl (r.v - W.avgSpeed) / (W.avgCount + 1 : ℕ))))
    (hnot : speedOf r = none → W'.avgCount = W.avgCount ∧ W'.avgSpeed = W.avgSpeed) : AvgInv W' := by
  obtain ⟨a, b, c, d⟩ := h
  have hnw : W'.NoWaitRow → W.NoWaitRow := by
    intro hh u q hq
    refine hh u q ?_
    rw [h2, upd_apply]; split
    · rename_i hu; subst hu; exact List.mem_cons_of_mem _ hq
    · exact hq
  have hnone : speedOf r = none → W'.loggedSpeeds = W.loggedSpeeds := by
    intro hr
    rw [loggedSpeeds_eq, loggedSpeeds_eq, h3, h2]
    refine List.flatMap_congr fun u _ => ?_
    rw [upd_apply]; split
    · rename_i hu; subst hu; rw [List.filterMap_cons, hr]
    · rfl
  have hsome : ∀ q, speedOf r = some q → List.Perm W'.loggedSpeeds (q :: W.loggedSpeeds) := by
    intro q hr
    rw [loggedSpeeds_eq, loggedSpeeds_eq, h3, h2]
    exact flatMap_cons_perm
      (f := fun u => (W.V.log u).filterMap speedOf)
      (g := fun u => (upd W.V.log v (r :: W.V.log v) u).filterMap speedOf) (v := v) (a := q)
      (by simp [List.filterMap_cons, hr]) (fun u hu => by simp only [upd_ne _ _ hu]) W.nVeh hv
  refine ⟨fun h => ?_, fun u hu => ?_, fun _ => ?_, fun _ hfl hw => ?_⟩
  · rw [h1, hf] at h; cases h
  · rw [h3] at hu
    rw [h2, upd_ne _ _ (Nat.ne_of_gt (lt_of_lt_of_le hv hu))]; exact b u hu
  · cases hr : speedOf r with
    | none => rw [hnone hr, (hnot hr).1, c hf]
    | some q => rw [(hsome q hr).length_eq, hrun q hr, c hf]; rfl
  · have hfl0 : W.cfg.fl = id := by rw [← h6]; exact hfl
    have hd := d hf hfl0 (hnw hw)
    cases hr : speedOf r with
    | none => rw [hnone hr, (hnot hr).1, (hnot hr).2]; exact hd
    | some q =>
      have hs : r.state = .run := by
        have hw' : r.state ≠ .wait := hw v r (by rw [h2, upd_same]; exact List.mem_cons_self)
        unfold speedOf at hr
        split at hr
        · assumption
        · rename_i h; exact absurd h hw'
        · cases hr
      have hq : r.v = q := by
        unfold speedOf at hr; rw [hs] at hr; simpa using hr
      have hf1 : ∀ x, W.fl x = x := fun x => by unfold World.fl; rw [hfl0]; rfl
      rw [hmean hs, hrun q hr, (hsome q hr).sum_eq, List.sum_cons, ← hd, hf1, hf1, hf1, hq]
      have : ((W.avgCount + 1 : ℕ) : ℚ) ≠ 0 := by positivity
      push_cast at *
      field_simp
      ring

theorem recordLog_avg (W : World) (v : VehId) (e : Bool) :
    (W.recordLog v e).avgCount = (W.recordRow v e).avgCount ∧
    (W.recordLog v e).avgSpeed = (W.recordRow v e).avgSpeed ∧
    (W.recordLog v e).V.log = (W.recordRow v e).V.log := by
  unfold recordLog recordRoute
  split <;> exact ⟨rfl, rfl, rfl⟩

theorem AvgInv.recordLog {W : World} {v : VehId} (h : AvgInv W) (hf : W.finalized = true)
    (hv : v < W.nVeh) (e : Bool) : AvgInv (W.recordLog v e) := by
  obtain ⟨h4, h5, h2⟩ := recordLog_avg W v e
  obtain ⟨lg, s, c, hsh, hlog⟩ := recordLog_shape W v e
  have g1 : (W.recordLog v e).finalized = W.finalized := by rw [hsh]
  have g3 : (W.recordLog v e).nVeh = W.nVeh := by rw [hsh]
  have g6 : (W.recordLog v e).cfg = W.cfg := by rw [hsh]
  by_cases hd : W.logDue e = true
  · have g2 : (W.recordLog v e).V.log = upd W.V.log v (W.logRow v :: W.V.log v) := by
      rw [hsh]; show lg = _; rw [hlog, if_pos hd]
    refine h.row hf hv (W.logRow v) g1 g2 g3 g6 (fun q hq => ?_) (fun hr => ?_) (fun hn => ?_)
    · rw [h4]; unfold recordRow; rw [if_pos hd]
      unfold speedOf logRow at hq
      cases hst : W.V.state v <;> simp_all
    · rw [h5]; unfold recordRow; rw [if_pos hd]
      unfold logRow at hr ⊢
      cases hst : W.V.state v <;> simp_all
    · rw [h4, h5]; unfold recordRow; rw [if_pos hd]
      unfold speedOf logRow at hn
      cases hst : W.V.state v <;> simp_all
  · have hrow : W.recordRow v e = W := by unfold recordRow; rw [if_neg hd]
    rw [hrow] at h4 h5 h2
    exact h.congr g1 h2 g3 h4 h5 g6

theorem AvgInv.prim {W W' : World} {a : Act} (hc : Core W) (hf : W.finalized = true)
    (hp : Prim a W W') (h : AvgInv W) : AvgInv W' := by
  by_cases hrec : ∃ v, a = .record v
  · obtain ⟨v, rfl⟩ := hrec
    cases hp with
    | record hv => exact h.recordLog hf ((hc.s.living_iff v).1 hv).1 false
  by_cases hend : ∃ v l, a = .endTrip v l
  · obtain ⟨v, l, rfl⟩ := hend
    cases hp with
    | endTrip hl hvs hfl he =>
      obtain ⟨l, _, _, _, _, hv, rfl⟩ := endTrip_ok he
      have : AvgInv (W.endTripCore v l) := h.congr rfl rfl rfl rfl rfl rfl
      exact this.recordLog hf ((hc.s.living_iff v).1 hv).1 true
  have hsh := hp.shape hc.s
  clear hp
  cases hsh with
  | record => exact absurd ⟨_, rfl⟩ hrec
  | endTrip => exact absurd ⟨_, _, rfl⟩ hend
  | _ => exact h.congr rfl rfl rfl rfl rfl rfl

theorem AvgInv.reach {W : World} (h : Reachable Any W) : AvgInv W := by
  refine Reachable.induct (P := AvgInv) ?_ ?_ ?_ ?_ ?_ ?_ ?_ ?_ h
  · intro cfg tmax rng
    exact ⟨fun _ _ => rfl, fun _ _ => rfl, fun h => by simp [World.new] at h,
      fun h => by simp [World.new] at h⟩
  · intro W a ph t soff hi hf hn _ _ hP; exact hP.congr rfl rfl rfl rfl rfl rfl
  · intro W W' a hi hf ha _ _ hP
    obtain ⟨s, e, nm, k, p, -, -, -, -, -, -, rfl⟩ := addLink_ok ha
    exact hP.congr rfl rfl rfl rfl rfl rfl
  · intro W W' a hi ha _ _ hP
    obtain ⟨o, d, dep, pref, cache, lp, la, nm, -, -, -, -, -, -, -, -, rfl⟩ := addVehicle_ok ha
    have hlog : ∀ v, upd W.V.log W.nVeh [] v = W.V.log v := by
      intro v; rw [upd_apply]; split
      · rename_i hv; rw [hv, hP.fresh _ le_rfl]
      · rfl
    have hlog' : upd W.V.log W.nVeh [] = W.V.log := funext hlog
    have hls : (W.addVehRes a o d dep pref cache lp la nm).loggedSpeeds = W.loggedSpeeds := by
      rw [loggedSpeeds_eq, loggedSpeeds_eq]
      show (List.range (W.nVeh + 1)).flatMap (fun v => (upd W.V.log W.nVeh [] v).filterMap speedOf) = _
      rw [hlog', List.range_succ, List.flatMap_append]
      simp [hP.fresh W.nVeh le_rfl]
    refine ⟨fun hf v => ?_, fun v hv => ?_, fun hf => ?_, fun hf hfl hw => ?_⟩
    · exact (hlog v).trans (hP.start hf v)
    · exact (hlog v).trans (hP.fresh v (le_trans (Nat.le_succ _) hv))
    · rw [hls]; exact hP.count hf
    · rw [hls]
      refine hP.mean hf hfl (fun v r hr => hw v r ?_)
      show r ∈ upd W.V.log W.nVeh [] v
      rw [hlog]; exact hr
  · intro W tm hi hf _ _ hP
    obtain ⟨ts, tta, fc, fr, la, hr⟩ := finalize_frame W tm
    have hls : (W.finalize tm).loggedSpeeds = [] := by
      rw [loggedSpeeds_eq, hr]
      simp [hP.start hf]
    refine ⟨fun h => ?_, fun v _ => ?_, fun _ => ?_, fun _ _ _ => ?_⟩
    · rw [hr] at h; cases h
    · rw [hr]; exact hP.start hf v
    · rw [hls, hr]; rfl
    · rw [hls, hr]; simp
  · rintro W W' hi _ _ hs hP
    obtain ⟨_, _, _, _, _, _, _, rfl, _⟩ := hs
    exact hP.congr rfl rfl rfl rfl rfl rfl
  · rintro W W' hi _ _ hs hP
    obtain ⟨_, _, _, _, _, _, _, _, _, _, _, _, _, _, _, _, _, _, _, rfl, _⟩ := hs
    exact hP.congr rfl rfl rfl rfl rfl rfl
  · intro W W1 W' hi hf hlt _ _ h1 hW hP
    subst hW
    refine (step_prim (P := fun X => X.finalized = true ∧ AvgInv X) hi hf ?_ ?_ h1 ⟨hf, hP⟩).2
    · intro act A B hc hp ⟨hfA, hA⟩
      exact ⟨by rw [hp.static.finalized, hfA], hA.prim hc hfA hp⟩
    · intro A t k _ ⟨hfA, hA⟩
      exact ⟨hfA, hA.congr rfl rfl rfl rfl rfl rfl⟩

/-- C38 (counting part): the number of samples behind the average is the number of log rows of running
and waiting vehicles. -/
theorem C38_count {W : World} (h : Reachable Any W) (hf : W.finalized = true) :
    W.avgCount = W.loggedSpeeds.length := (AvgInv.reach h).count hf

/-- C38 in exact arithmetic, for logs without waiting vehicles: the average times the number of samples
is the sum of the logged speeds. Missing: with waiting vehicles in the log the claim is false, see
`C38_false`. -/
theorem C38_mean_partial {W : World} (h : Reachable Any W) (hf : W.finalized = true)
    (hfl : W.cfg.fl = id) (hw : ∀ v, ∀ r ∈ W.V.log v, r.state ≠ .wait) :
    W.avgSpeed * W.loggedSpeeds.length = W.loggedSpeeds.sum ∧
    (W.loggedSpeeds ≠ [] → W.avgSpeed = W.loggedSpeeds.sum / W.loggedSpeeds.length) := by
  have hi := AvgInv.reach h
  have h1 := hi.mean hf hfl hw
  rw [hi.count hf] at h1
  refine ⟨h1, fun hne => ?_⟩
  have : (W.loggedSpeeds.length : ℚ) ≠ 0 := by
    simpa using hne
  rw [eq_div_iff this]; exact h1

/-- `demo1` with one vehicle only, so nobody is logged while waiting for long. -/
def demoLog (k : ℕ) : List Cmd :=
  [.node { name := "a" }, .node { name := "b" }, .node { name := "c", x := 3, y := 4 },
   .link { startN := .obj 0, endN := .obj 1, length := 200 },
   .link { startN := .obj 1, endN := .obj 2, length := 200 },
   .veh { orig := .obj 0, dest := some (.obj 2), dep := .step 0 },
   .fin (some 300)] ++ List.replicate k .tick

/-- `C38_mean_partial` is not vacuous: four logged speeds, mean 20. -/
example : ∃ W, Reachable Any W ∧ W.finalized = true ∧ W.cfg.fl = id ∧
    (∀ v, ∀ r ∈ W.V.log v, r.state ≠ .wait) ∧ W.loggedSpeeds.length = 4 ∧ W.avgSpeed = 20 := by
  have hd : obs (runCmds demoCfg (fun _ => 0) (demoLog 8)) (fun W =>
      W.finalized && decide (W.nVeh = 1) && decide (∀ r ∈ W.V.log 0, r.state ≠ .wait) &&
        decide (W.loggedSpeeds.length = 4) && decide (W.avgSpeed = 20)) = true := by decide +kernel
  obtain ⟨W, hW, hp⟩ := obs_ok hd
  simp only [Bool.and_eq_true, decide_eq_true_eq] at hp
  have hr := runCmds_reachable hW
  refine ⟨W, hr, hp.1.1.1.1, by rw [runCmds_cfg hW]; rfl, fun v r hm => ?_, hp.1.2, hp.2⟩
  by_cases hv : v = 0
  · subst hv; exact hp.1.1.2 r hm
  · rw [(AvgInv.reach hr).fresh v (by rw [hp.1.1.1.2]; exact Nat.one_le_iff_ne_zero.2 hv)] at hm
    cases hm

set_option maxRecDepth 100000 in
/-- C38 is false of the code: a waiting vehicle raises the number of samples but does not pull the
average down, so the average exceeds the mean of the logged speeds (39/2 instead of 35/2). -/
theorem C38_false : ∃ W, Reachable Any W ∧ W.finalized = true ∧ W.cfg.fl = id ∧
    W.loggedSpeeds.sum / W.loggedSpeeds.length = 35 / 2 ∧ W.avgSpeed = 39 / 2 := by
  have hd : obs (runCmds demoCfg (fun _ => 0) (demo1 8)) (fun W =>
      W.finalized && decide (W.loggedSpeeds.sum / W.loggedSpeeds.length = 35 / 2) &&
        decide (W.avgSpeed = 39 / 2)) = true := by decide +kernel
  obtain ⟨W, hW, hp⟩ := obs_ok hd
  simp only [Bool.and_eq_true, decide_eq_true_eq] at hp
  exact ⟨W, runCmds_reachable hW, hp.1.1, by rw [runCmds_cfg hW]; rfl, hp.1.2, hp.2⟩

/-! ### C49: examples -/

theorem runCmds_path {cfg rng} (cs ds : List Cmd) {W : World}
    (h : runCmds cfg rng (cs ++ ds) = .ok W) :
    ∃ W0, runCmds cfg rng cs = .ok W0 ∧ ReflTransGen ApiStep W0 W := by
  unfold runCmds at h ⊢
  rw [List.foldlM_append] at h
  obtain ⟨W0, h0, h1⟩ := bind_ok.mp h
  refine ⟨W0, h0, ?_⟩
  exact foldlM_inv (P := fun X => ReflTransGen ApiStep W0 X)
    (fun _ _ _ _ hr hc => hr.tail (Cmd.run_api hc)) .refl h1

set_option maxRecDepth 100000 in
/-- `C49_rows` and `C49_read` are not vacuous: a vehicle present before the first step, living and
running after four steps; the rows are at 0, 5, 10, 15 and the position at 15 is halfway on the first link. -/
example : ∃ W0 A B W, Reachable Any W0 ∧ W0.T = 0 ∧ ReflTransGen ApiStep W0 A ∧ A.finalized = true ∧
    A.T < A.tsize ∧ A.tick = .ok B ∧ ReflTransGen ApiStep B W ∧ W0.cfg.logInterval = 1 ∧
    W0.cfg.fl = id ∧ 0 < W0.dt ∧ 0 < W0.nVeh ∧ 0 ∈ B.living ∧ B.V.state 0 = .run ∧
    A.T * W0.dt ≤ 16 ∧ 16 < (A.T + 1) * W0.dt := by
  have hd : obs (runCmds demoCfg (fun _ => 0) (demoLog 3)) (fun A =>
      obs A.tick (fun B => A.finalized && decide (A.T = 3) && decide (A.T < A.tsize) &&
        decide (0 ∈ B.living) && decide (B.V.state 0 = .run))) = true := by decide +kernel
  obtain ⟨A, hA, hp⟩ := obs_ok hd
  obtain ⟨B, hB, hp⟩ := obs_ok hp
  simp only [Bool.and_eq_true, decide_eq_true_eq] at hp
  have h0 : obs (runCmds demoCfg (fun _ => 0) (demoLog 0)) (fun W => decide (W.T = 0) &&
      decide (0 < W.nVeh)) = true := by decide +kernel
  obtain ⟨W0, hW0, hp0⟩ := obs_ok h0
  simp only [Bool.and_eq_true, decide_eq_true_eq] at hp0
  obtain ⟨W0', h1, hpath⟩ := runCmds_path (demoLog 0) (List.replicate 3 .tick) hA
  have : W0' = W0 := by rw [hW0] at h1; cases h1; rfl
  subst this
  have hc : W0'.cfg = demoCfg := runCmds_cfg hW0
  have hdt : W0'.dt = 5 := by unfold World.dt; rw [hc]; decide +kernel
  refine ⟨W0', A, B, B, runCmds_reachable hW0, hp0.1, hpath, hp.1.1.1.1, hp.1.1.2, hB, .refl,
    by rw [hc]; rfl, by rw [hc]; rfl, by rw [hdt]; norm_num, hp0.2, hp.1.2, hp.2, ?_, ?_⟩ <;>
  · rw [hdt, hp.1.1.1.2]; norm_num

set_option maxRecDepth 100000 in
/-- The claim of C49 does not extend to vehicles added during the simulation (`demoLog` with a vehicle
added after four steps): `get_xy_coords(5)`, before the vehicle existed, gives a place on the road,
and for the time of the last executed step `get_xy_coords` raises although the vehicle is living. -/
theorem C49_added_late_false : ∃ W v t q, Reachable Any W ∧ W.cfg.logInterval = 1 ∧ W.cfg.fl = id ∧
    v ∈ W.living ∧ (∀ r ∈ W.V.log v, t < r.t) ∧ 0 ≤ t ∧ W.getXyAt v t = .ok q ∧ q ≠ (-1, -1) ∧
    W.getXyAt v ((W.T - 1 : ℚ) * W.dt) = .error .indexError := by
  have hd : obs (runCmds demoCfg (fun _ => 0) (demoLog 4 ++
      [.veh { orig := .obj 0, dest := some (.obj 2), dep := .step 4 }, .tick, .tick, .tick])) (fun W =>
      decide (1 ∈ W.living) && decide (∀ r ∈ W.V.log 1, 5 < r.t) &&
      decide ((match W.getXyAt 1 5 with | .ok q => q | .error _ => (-1, -1)) ≠ (-1, -1)) &&
      decide (W.getXyAt 1 ((W.T - 1 : ℚ) * W.dt) = .error .indexError)) = true := by decide +kernel
  obtain ⟨W, hW, hp⟩ := obs_ok hd
  simp only [Bool.and_eq_true, decide_eq_true_eq] at hp
  have hc := runCmds_cfg hW
  obtain ⟨⟨⟨h1, h2⟩, h3⟩, h4⟩ := hp
  refine ⟨W, 1, 5, _, runCmds_reachable hW, by rw [hc]; rfl, by rw [hc]; rfl, h1, h2, by norm_num, ?_, h3, h4⟩
  cases hg : W.getXyAt 1 5 with
  | ok q => rfl
  | error e => rw [hg] at h3; exact absurd rfl h3

end UX
