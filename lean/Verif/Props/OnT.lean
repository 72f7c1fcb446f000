import Verif.Proofs.Utilities
import Verif.Spec.Utilities
import Verif.Props.Demand

/-! # C68: recorded shortest travel times -/

namespace UX
open World

/-- A table is recorded for exactly the simulated steps at which routes are searched. -/
theorem C68_recorded {W : World} (h : Reachable Any W) (hf : W.finalized = true) (k : ℕ) :
    W.R.record k ≠ none ↔ k < W.T ∧ k % W.cfg.deltatRoute = 0 :=
  ((record_iff h) hf).2 k

/-- The table recorded in a step is the table of shortest travel times computed in that step, and
nothing that happens later changes it. -/
theorem C68_kept {W0 W1 W : World} (h : Reachable Any W0) (hf : W0.finalized = true) (hT : W0.T < W0.tsize)
    (ht : W0.tick = .ok W1) (hdue : W0.T % W0.cfg.deltatRoute = 0)
    (hlater : Relation.ReflTransGen ApiStep W1 W) :
    W.R.record W0.T = some W1.R.dist ∧ W.cfg = W0.cfg ∧ W.tmax = W0.tmax ∧ W.finalized = true ∧ W0.T < W.T ∧
      Reachable Any W := by
  induction hlater with
  | refl =>
    obtain ⟨a1, a2, a3, a4, a5⟩ := tick_frame h.inv hf ht
    have hs : ApiStep W0 W1 := .tick hf hT ht
    obtain ⟨-, -, b1, -, -⟩ := hs.record h.inv hf
    refine ⟨?_, a4, b1, a3, by rw [a1]; omega, .next h hs trivial⟩
    rw [tick_record h.inv hf ht, if_pos hdue, upd_same]
  | @tail X Y _ hs ih =>
    obtain ⟨i1, i2, i3, i4, i5, i6⟩ := ih
    obtain ⟨b0, b1, b2, b3, hb⟩ := hs.record i6.inv i4
    refine ⟨?_, b1.trans i2, b2.trans i3, b0, ?_, .next i6 hs trivial⟩
    · rcases hb with ⟨-, c2⟩ | ⟨c1, -⟩
      · rw [c2, i1]
      · rw [tick_record i6.inv i4 c1]
        split
        · rw [upd_ne _ _ (by omega), i1]
        · exact i1
    · rcases hb with ⟨c1, -⟩ | ⟨-, c1⟩ <;> omega

theorem deltatRoute_mul {c : Config} (hfl : c.fl = id) (hdt : 0 < c.deltat) {m : ℕ} (hm : 0 < m)
    (hduo : c.duoUpdateTime = m * c.deltat) : c.deltatRoute = m := by
  unfold Config.deltatRoute
  rw [hfl, hduo, id, mul_div_cancel_right₀ _ hdt.ne']
  have : pyInt (m : ℚ) = m := by exact_mod_cast pyInt_intCast (m : ℤ)
  rw [this]
  simp; omega

/-- What step is looked up, for an update time of `m` steps. -/
theorem duoStep_mul {W : World} (hfl : W.cfg.fl = id) (hdt : 0 < W.dt) {m : ℕ} (hm : 0 < m)
    (hduo : W.cfg.duoUpdateTime = m * W.dt) {t : ℚ} {k : ℕ} (hk : LastUpdate W.cfg t k) :
    W.duoStep t = (((k / m : ℕ) : ℤ), (k : ℤ)) := by
  have hr := deltatRoute_mul hfl hdt hm hduo
  obtain ⟨h1, h2, h3⟩ := hk
  rw [hr] at h1
  obtain ⟨q, rfl⟩ : ∃ q, k = m * q := Nat.dvd_of_mod_eq_zero h1
  rw [Nat.mul_div_cancel_left _ hm]
  have hmq : (0 : ℚ) < m := by exact_mod_cast hm
  have hd : (0 : ℚ) < m * W.dt := mul_pos hmq hdt
  have hdt' : W.cfg.deltat = W.dt := rfl
  have hfloor : ⌊t / W.cfg.duoUpdateTime⌋ = (q : ℤ) := by
    rw [hduo, Int.floor_eq_iff]
    push_cast at h2 ⊢
    rw [hdt'] at h2
    constructor
    · rw [le_div_iff₀ hd]
      linarith
    · rw [div_lt_iff₀ hd]
      by_contra hc
      push Not at hc
      have := h3 (m * (q + 1)) (by rw [hr]; exact Nat.mul_mod_right _ _) (by
        push_cast
        rw [hdt']
        linarith)
      rw [Nat.mul_add] at this
      omega
  unfold duoStep
  dsimp only
  rw [hfloor, Prod.mk.injEq]
  refine ⟨rfl, ?_⟩
  unfold World.fl
  rw [hfl, hduo]
  simp only [id]
  rw [show (((q : ℤ) : ℚ) * (m * W.dt) / W.dt) = (((m * q : ℕ) : ℤ) : ℚ) by
    rw [← mul_assoc, mul_div_cancel_right₀ _ hdt.ne']
    push_cast
    ring]
  exact pyInt_intCast _

/-- With an update time of `m` whole steps, the lookup at time `t` gives the table computed in the
last route update at or before `t` (times from `TMAX` on count as `TMAX - DELTAT`). The lookup works
at any moment after that update.

Partial: rounding of `t // DUO_UPDATE_TIME` and of the products is not covered, and update times that
are no multiple of the step raise (`C68_step_false`). -/
theorem C68_lookup_partial {W0 W1 W : World} (h : Reachable Any W0) (hf : W0.finalized = true)
    (hT : W0.T < W0.tsize) (ht : W0.tick = .ok W1) (hlater : Relation.ReflTransGen ApiStep W1 W)
    (hfl : W0.cfg.fl = id) (hdt : 0 < W0.dt) {m : ℕ} (hm : 0 < m) (hduo : W0.cfg.duoUpdateTime = m * W0.dt)
    {tm t : ℚ} (htm : W0.tmax = some tm)
    (hk : LastUpdate W0.cfg (if tm ≤ t then tm - W0.dt else t) W0.T) :
    W.distOnT t = .ok (W1.R.dist, (W0.T / m : ℕ)) := by
  obtain ⟨a1, a2, a3, a4, a5, a6⟩ := C68_kept h hf hT ht hk.1 hlater
  have hdtW : W.dt = W0.dt := by unfold World.dt; rw [a2]
  have hflW : W.cfg.fl = id := by rw [a2, hfl]
  have hclamp : W.clampTime tm t = if tm ≤ t then tm - W0.dt else t := by
    unfold clampTime World.fl
    rw [hflW, hdtW]; rfl
  have hs := duoStep_mul (W := W) hflW (by rw [hdtW]; exact hdt) hm (by rw [a2, hdtW, hduo])
    (t := W.clampTime tm t) (k := W0.T) (by rw [a2, hclamp]; exact hk)
  unfold distOnT
  rw [a3, htm]
  dsimp only
  have hd0 : ¬ (W.cfg.duoUpdateTime = 0 ∨ W.dt = 0) := by
    rw [a2, hdtW, hduo]
    rintro (e | e)
    · have : (0 : ℚ) < m * W0.dt := mul_pos (by exact_mod_cast hm) hdt
      exact this.ne' e
    · exact hdt.ne' e
  rw [if_neg hd0, if_neg (by rw [a4]; decide), hs]
  dsimp only
  rw [if_neg (by simp), Int.toNat_natCast, a1]

/-- After a complete run over a whole number of steps the lookup never raises, for times from 0 on. -/
theorem C68_complete_partial {W : World} (h : Reachable Any W) (hf : W.finalized = true)
    (hdone : W.T = W.tsize) (hfl : W.cfg.fl = id) (hdt : 0 < W.dt) {m n : ℕ} (hm : 0 < m) (hn : 0 < n)
    (hduo : W.cfg.duoUpdateTime = m * W.dt) (htm : W.tmax = some (n * W.dt)) {t : ℚ} (ht : 0 ≤ t) :
    ∃ d k, W.distOnT t = .ok (d, k) := by
  have hr := deltatRoute_mul hfl hdt hm hduo
  obtain ⟨⟨tm, e1, e2⟩, -⟩ := record_iff h hf
  rw [htm, Option.some.injEq] at e1
  have hts : W.tsize = n := by
    rw [e2, ← e1]
    unfold World.fl
    rw [hfl, id, mul_div_cancel_right₀ _ hdt.ne']
    have : pyInt (n : ℚ) = n := by exact_mod_cast pyInt_intCast (n : ℤ)
    rw [this]; simp
  have hmq : (0 : ℚ) < m := by exact_mod_cast hm
  have hd : (0 : ℚ) < m * W.dt := mul_pos hmq hdt
  set s := W.clampTime (n * W.dt) t with hs
  have hs0 : 0 ≤ s ∧ s < n * W.dt := by
    rw [hs]
    unfold clampTime World.fl
    rw [hfl]
    have : W.dt ≤ n * W.dt := le_mul_of_one_le_left hdt.le (by exact_mod_cast hn)
    split
    · simp only [id]; constructor <;> linarith
    · rename_i hc; push Not at hc; exact ⟨ht, hc⟩
  have hfl0 : 0 ≤ ⌊s / (m * W.dt)⌋ := Int.floor_nonneg.2 (div_nonneg hs0.1 hd.le)
  obtain ⟨j, hj⟩ := Int.eq_ofNat_of_zero_le hfl0
  have hj' := Int.floor_eq_iff.1 hj
  have hlow : ((m * j : ℕ) : ℚ) * W.dt ≤ s := by
    have := (le_div_iff₀ hd).1 hj'.1
    push_cast at this ⊢
    linarith
  have hk : LastUpdate W.cfg s (m * j) := by
    refine ⟨by rw [hr]; exact Nat.mul_mod_right _ _, hlow, ?_⟩
    intro i hi hi'
    rw [hr] at hi
    have hi2 : i = m * (i / m) := by have := Nat.div_add_mod i m; omega
    rw [hi2]
    refine Nat.mul_le_mul_left _ ?_
    have h1 := (div_lt_iff₀ hd).1 hj'.2
    have h2 : ((i / m : ℕ) : ℚ) * (m * W.dt) < ((j : ℤ) + 1 : ℚ) * (m * W.dt) := by
      refine lt_of_le_of_lt ?_ h1
      refine le_trans (le_of_eq ?_) hi'
      have : (i : ℚ) = m * ((i / m : ℕ) : ℚ) := by exact_mod_cast hi2
      show _ = (i : ℚ) * W.dt
      rw [this]; ring
    have h3 := lt_of_mul_lt_mul_right h2 hd.le
    have h4 : i / m < j + 1 := by
      have h5 : (((i / m : ℕ) : ℤ) : ℚ) < (((j + 1 : ℕ) : ℤ) : ℚ) := by push_cast; push_cast at h3; exact h3
      exact_mod_cast Int.cast_lt.1 h5
    omega
  have hlt : m * j < W.T := by
    rw [hdone, hts]
    have : ((m * j : ℕ) : ℚ) * W.dt < n * W.dt := lt_of_le_of_lt hlow hs0.2
    exact_mod_cast lt_of_mul_lt_mul_right this hdt.le
  have hrec := (C68_recorded h hf (m * j)).2 ⟨hlt, by rw [hr]; exact Nat.mul_mod_right _ _⟩
  obtain ⟨d, hdd⟩ := Option.ne_none_iff_exists'.1 hrec
  refine ⟨d, (m * j / m : ℕ), ?_⟩
  unfold distOnT
  rw [htm]
  dsimp only
  rw [if_neg (by rw [hduo]; rintro (e | e); exacts [hd.ne' e, hdt.ne' e]), if_neg (by rw [hf]; decide),
    ← hs, duoStep_mul hfl hdt hm hduo hk]
  dsimp only
  rw [if_neg (Int.not_lt.2 (Int.natCast_nonneg _)), Int.toNat_natCast, hdd]

/-- Update every 10 s, steps of 5 s. -/
def everyTen : Config := { lineCfg with duoUpdateTime := 10 }

def twoLinks (tmax : ℚ) (k : ℕ) : List Cmd :=
  [.node { name := "a" }, .node { name := "b" },
   .link { name := some "p", startN := .obj 0, endN := .obj 1, length := 200 },
   .link { name := some "q", startN := .obj 0, endN := .obj 1, length := 400 },
   .fin (some tmax)] ++ List.replicate k .tick

/-- The hypotheses are met: lookups during and after a run of 20 s. -/
example : obs (runCmds everyTen (fun _ => 0) (twoLinks 20 4)) (fun W => decide (W.T = W.tsize ∧
    W.tmax = some (4 * W.dt) ∧ W.cfg.duoUpdateTime = 2 * W.dt) && [0, 5, 9, 10, 19, 20, 500].all (fun t =>
      match W.distOnT t with | .ok (d, _) => decide (d 0 1 = some 15) | .error _ => false)) = true := by
  decide +kernel

set_option maxRecDepth 100000 in
/-- With updates every 12 s and steps of 5 s (`DELTAT_ROUTE` is 2) the lookup for 36 s looks for
step 7, which was never recorded, although the run is complete. -/
theorem C68_step_false : ∃ W, Reachable Any W ∧ W.finalized = true ∧ W.T = W.tsize ∧ W.tmax = some 100 ∧
    W.cfg.fl = id ∧ W.distOnT 36 = .error .keyError := by
  have h : obs (runCmds { lineCfg with duoUpdateTime := 12 } (fun _ => 0) (twoLinks 100 20)) (fun W =>
    decide (W.finalized = true ∧ W.T = W.tsize ∧ W.tmax = some 100) && (match W.distOnT 36 with
      | .error .keyError => true | _ => false)) = true := by decide +kernel
  obtain ⟨W, h1, h2⟩ := obs_ok h
  simp only [Bool.and_eq_true, decide_eq_true_eq] at h2
  refine ⟨W, runCmds_reachable h1, h2.1.1, h2.1.2.1, h2.1.2.2, by rw [runCmds_cfg h1]; rfl, ?_⟩
  have := h2.2
  split at this
  · assumption
  · cases this

set_option maxRecDepth 100000 in
/-- With a simulation time of 22 s, steps of 5 s and updates every 10 s, the lookup for 21 s raises
although 21 s is before the end. -/
theorem C68_end_false : ∃ W, Reachable Any W ∧ W.finalized = true ∧ W.T = W.tsize ∧ W.tmax = some 22 ∧
    W.cfg.fl = id ∧ W.cfg.duoUpdateTime = 2 * W.dt ∧ W.distOnT 21 = .error .keyError := by
  have h : obs (runCmds everyTen (fun _ => 0) (twoLinks 22 4)) (fun W =>
    decide (W.finalized = true ∧ W.T = W.tsize ∧ W.tmax = some 22 ∧ W.cfg.duoUpdateTime = 2 * W.dt) &&
      (match W.distOnT 21 with | .error .keyError => true | _ => false)) = true := by decide +kernel
  obtain ⟨W, h1, h2⟩ := obs_ok h
  simp only [Bool.and_eq_true, decide_eq_true_eq] at h2
  refine ⟨W, runCmds_reachable h1, h2.1.1, h2.1.2.1, h2.1.2.2.1, by rw [runCmds_cfg h1]; rfl, h2.1.2.2.2, ?_⟩
  have := h2.2
  split at this
  · assumption
  · cases this

set_option maxRecDepth 100000 in
/-- The time returned with `return_time=True` is the number of the update interval, not the time of
the update: for 15 s the table of 10 s is returned, with "time" 1. -/
theorem C68_time_false : ∃ W d, Reachable Any W ∧ W.finalized = true ∧ LastUpdate W.cfg 15 2 ∧ 2 * W.dt = 10 ∧
    W.distOnT 15 = .ok (d, 1) ∧ W.R.record 2 = some d := by
  have h : obs (runCmds everyTen (fun _ => 0) (twoLinks 20 4)) (fun W =>
    decide (W.finalized = true ∧ W.tmax = some 20 ∧ W.T = 4) ) = true := by decide +kernel
  obtain ⟨W, h1, h2⟩ := obs_ok h
  simp only [decide_eq_true_eq] at h2
  obtain ⟨a1, a2, a3⟩ := h2
  have hr := runCmds_reachable h1
  have hcfg := runCmds_cfg h1
  have hr2 : W.cfg.deltatRoute = 2 := by rw [hcfg]; decide +kernel
  have hdt : W.cfg.deltat = 5 := by rw [hcfg]; decide +kernel
  have hlu : LastUpdate W.cfg 15 2 := by
    refine ⟨by rw [hr2], by rw [hdt]; norm_num, ?_⟩
    intro j hj hj'
    rw [hr2] at hj
    rw [hdt] at hj'
    have : (j : ℚ) ≤ 3 := by linarith
    have : j ≤ 3 := by exact_mod_cast this
    omega
  obtain ⟨d, hd⟩ := Option.ne_none_iff_exists'.1 ((C68_recorded hr a1 2).2 ⟨by omega, by rw [hr2]⟩)
  refine ⟨W, d, hr, a1, hlu, by show 2 * W.cfg.deltat = 10; rw [hdt]; norm_num, ?_, hd⟩
  have hs := duoStep_mul (W := W) (t := 15) (k := 2) (m := 2) (by rw [hcfg]; rfl)
    (by show 0 < W.cfg.deltat; rw [hdt]; norm_num) (by norm_num)
    (by show _ = _ * W.cfg.deltat; rw [hdt, hcfg]; show (10 : ℚ) = _; norm_num) hlu
  unfold distOnT
  rw [a2]
  dsimp only
  rw [if_neg (by show ¬ (_ ∨ W.cfg.deltat = 0); rw [hdt, hcfg]; simp [everyTen]), if_neg (by rw [a1]; decide),
    show W.clampTime 20 15 = 15 from if_neg (by norm_num), hs]
  dsimp only
  rw [if_neg (by norm_num)]
  show (match W.R.record 2 with | some d => _ | none => _) = _
  rw [hd]; rfl

set_option maxRecDepth 100000 in
/-- The tables are not shortest travel times: of two parallel links of 10 s and 20 s the mean, 15 s,
is returned. -/
theorem C68_shortest_false : ∃ W d k, Reachable Any W ∧ W.cfg.duoNoise = 0 ∧ (W.L.ttInstant 0).headD 0 = 10 ∧
    (W.L.ttInstant 1).headD 0 = 20 ∧ W.L.startN 0 = 0 ∧ W.L.endN 0 = 1 ∧ W.distOnT 0 = .ok (d, k) ∧
    d 0 1 = some 15 := by
  have h : obs (runCmds everyTen (fun _ => 0) (twoLinks 20 1)) (fun W =>
    decide (W.cfg.duoNoise = 0 ∧ (W.L.ttInstant 0).headD 0 = 10 ∧ (W.L.ttInstant 1).headD 0 = 20 ∧
      W.L.startN 0 = 0 ∧ W.L.endN 0 = 1) &&
      (match W.distOnT 0 with | .ok (d, _) => decide (d 0 1 = some 15) | .error _ => false)) = true := by
    decide +kernel
  obtain ⟨W, h1, h2⟩ := obs_ok h
  simp only [Bool.and_eq_true, decide_eq_true_eq] at h2
  obtain ⟨⟨a1, a2, a3, a4, a5⟩, h3⟩ := h2
  split at h3
  · rename_i d k e
    exact ⟨W, d, k, runCmds_reachable h1, a1, a2, a3, a4, a5, e, of_decide_eq_true h3⟩
  · cases h3

end UX
