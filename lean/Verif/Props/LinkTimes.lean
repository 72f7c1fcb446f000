import Verif.Proofs.LinkTimes
import Verif.Proofs.InstantTimes
import Verif.Proofs.Count
import Verif.Proofs.TraceExt
import Verif.Props.Kinematics
import Verif.Props.RouteChoice

/-! # Travel times recorded by links (C53, C54) -/

namespace UX
open World

/-- C53: there is one instantaneous travel time per executed step. -/
theorem C53_count {OK : World → Prop} {W : World} (h : Reachable OK W) {l : LinkId} (hl : l < W.nLinks) :
    (W.L.ttInstant l).length = W.T :=
  (CInv.reach h).tt l hl

/-- C53, exact arithmetic: a step whose number is a multiple of the interval adds the travel time at the mean
speed of the vehicles that are on the link when the step begins; another step repeats the previous value.
Values recorded before stay. -/
theorem C53_entry {OK : World → Prop} {W W' : World} (h : Reachable OK W) (hf : W.finalized = true)
    (hex : W.cfg.fl = id) (ht : W.tick = .ok W') {l : LinkId} (hl : l < W.nLinks) :
    ∃ q, W'.L.ttInstant l = q :: W.L.ttInstant l ∧
      (W.T % W.cfg.ttInterval = 0 → q = instantTime W l) ∧
      (W.T % W.cfg.ttInterval ≠ 0 → ∃ t, W.L.ttInstant l = q :: t) :=
  tick_instant h.inv hf hex ht hl

/-- C53: no instantaneous travel time is below the free-flow travel time (exact arithmetic, free-flow speeds
`u0` never changed). -/
theorem C53_free_flow {u0 : LinkId → ℚ} {OK : World → Prop} (hO : ∀ W, OK W → ExactOK u0 W)
    (hdt : ∀ W, OK W → 0 < W.dt) {W : World} (h : Reachable OK W) {l : LinkId} (hl : l < W.nLinks) {q : ℚ}
    (hq : q ∈ W.L.ttInstant l) : W.L.length l / u0 l ≤ q :=
  (IInv.reach hO hdt h).ge l hl q hq

/-- The travel times after any calls that follow the finalization of `W0`. -/
theorem finalize_times {OK : World → Prop} {W0 W : World} (h : Reachable OK W0) (hf : W0.finalized = false)
    {tm : Option ℚ} (hex : W0.cfg.fl = id) (hdt : W0.cfg.deltat ≠ 0)
    (hp : Relation.ReflTransGen ApiStep (W0.finalize tm) W) :
    Reachable Any W ∧ LTimes (fun l => W0.L.length l / W0.L.u l) W ∧ W.finalized = true ∧ W.cfg = W0.cfg := by
  have hr0 : Reachable Any (W0.finalize tm) := .next (h.mono fun _ _ => trivial) (.finalize hf) trivial
  have hfin : (W0.finalize tm).finalized = true := by
    obtain ⟨ts, tta, fc, fr, la, e⟩ := finalize_frame W0 tm
    rw [e]
  have hc0 : (W0.finalize tm).cfg = W0.cfg := by
    obtain ⟨ts, tta, fc, fr, la, e⟩ := finalize_frame W0 tm
    rw [e]
  induction hp with
  | refl => exact ⟨hr0, LTimes.fresh (h.mono fun _ _ => trivial) hf tm hex hdt, hfin, hc0⟩
  | tail _ hs ih =>
    obtain ⟨h1, h2, h3, h4⟩ := ih
    obtain ⟨h5, h6⟩ := h2.api h1.inv h3 hs
    exact ⟨.next h1 hs trivial, h5, h6, (hs.cfg h1.inv).trans h4⟩

/-- C54, exact arithmetic: after any calls that follow the finalization of `W0`, the actual travel time of a
link for a vehicle entering in step `i` is that of the vehicle that left the link last among those that had
entered by step `i`, and the free-flow time at finalization as long as there is no such vehicle. -/
theorem C54_actual {OK : World → Prop} {W0 W : World} (h : Reachable OK W0) (hf : W0.finalized = false)
    {tm : Option ℚ} (hex : W0.cfg.fl = id) (hdt : W0.cfg.deltat ≠ 0)
    (hp : Relation.ReflTransGen ApiStep (W0.finalize tm) W) {l : LinkId} (hl : l < W.nLinks) {i : ℕ}
    (hi : i < W.tsize) :
    (W.L.ttActual l)[i]? =
      some (timeAt (W0.L.length l / W0.L.u l) W0.cfg.deltat (stays l W.trace) i) := by
  obtain ⟨-, h2, -, h4⟩ := finalize_times h hf hex hdt hp
  rw [h2.act l hl i hi, h4]

theorem trace_sorted {OK : World → Prop} {W : World} (h : Reachable OK W) : W.trace.Pairwise (fun a b => b.at ≤ a.at) := by
  induction h with
  | new h => simp [World.new]
  | @next W W' hr hs hok ih =>
    rcases api_trace hr.inv hs with ⟨h1, -⟩ | ⟨hf, hT, new, h1, h2⟩
    · rw [h1]; exact ih
    · rw [h1, List.pairwise_append]
      refine ⟨List.pairwise_of_forall_mem_list fun a ha b hb => by rw [h2 a ha, h2 b hb], ih, ?_⟩
      intro a ha b hb
      rw [h2 a ha]
      exact ((CInv.reach hr).lt b hb).le

theorem takesAt_at {v : VehId} {e : Event} {p : ℕ × LinkId} (h : takesAt v e = some p) : e.at = p.1 := by
  unfold takesAt at h
  split at h <;> first | (split at h <;> simp at h; subst h; rfl) | simp at h

theorem stays_le {tr : List Event} (h : tr.Pairwise (fun a b => b.at ≤ a.at)) (l : LinkId) :
    ∀ s ∈ stays l tr, s.1 ≤ s.2 := by
  have last : ∀ {tr : List Event} {T : ℕ} {v : VehId} {p : ℕ × LinkId}, (∀ e ∈ tr, e.at ≤ T) → lastTake v tr = some p → p.1 ≤ T := by
    intro tr T v p h1 h2
    obtain ⟨e, he, h3⟩ := List.exists_of_findSome?_eq_some h2
    rw [← takesAt_at h3]; exact h1 e he
  induction tr with
  | nil => simp [stays]
  | cons e tr ih =>
    rw [List.pairwise_cons] at h
    intro s hs
    have ih := ih h.2 s
    cases e with
    | pass T v n a b ph =>
      rw [stays] at hs
      split at hs
      · rcases List.mem_append.1 hs with hs | hs
        · rw [List.mem_map] at hs
          obtain ⟨p, hp, rfl⟩ := hs
          have hp' : lastTake v tr = some p := by simpa using hp
          have h5 : p.1 ≤ T := last h.1 hp'
          exact h5
        · exact ih hs
      · exact ih hs
    | finish T v a n =>
      rw [stays] at hs
      split at hs
      · rcases List.mem_append.1 hs with hs | hs
        · rw [List.mem_map] at hs
          obtain ⟨p, hp, rfl⟩ := hs
          have hp' : lastTake v tr = some p := by simpa using hp
          have h5 : p.1 ≤ T := last h.1 hp'
          exact h5.trans (Nat.le_succ _)
        · exact ih hs
      · exact ih hs
    | _ => simp only [stays] at hs; exact ih hs

/-- C54: no actual travel time is negative (exact arithmetic). -/
theorem C54_nonneg {OK : World → Prop} {W0 W : World} (h : Reachable OK W0) (hf : W0.finalized = false)
    {tm : Option ℚ} (hex : W0.cfg.fl = id) (hdt : 0 < W0.cfg.deltat)
    (hp : Relation.ReflTransGen ApiStep (W0.finalize tm) W) {l : LinkId} (hl : l < W.nLinks)
    (hlen : 0 ≤ W0.L.length l) (hu : 0 ≤ W0.L.u l) : ∀ q ∈ W.L.ttActual l, 0 ≤ q := by
  obtain ⟨h1, h2, -, h4⟩ := finalize_times h hf hex hdt.ne' hp
  intro q hq
  obtain ⟨i, hi⟩ := List.mem_iff_getElem?.1 hq
  have hlt : i < W.tsize := by
    rw [← h2.len l hl]
    by_contra hc
    rw [List.getElem?_eq_none (by omega)] at hi
    cases hi
  rw [C54_actual h hf hex hdt.ne' hp hl hlt, Option.some.injEq] at hi
  rw [← hi]
  unfold timeAt
  split
  · rename_i s hs
    have := stays_le (trace_sorted h1) l s (List.mem_of_find?_eq_some hs)
    have h5 : (s.1 : ℚ) ≤ s.2 := by exact_mod_cast this
    exact mul_nonneg (by linarith) hdt.le
  · exact div_nonneg hlen hu

set_option maxRecDepth 100000 in
/-- The hypotheses of C53 are met, with a travel time above the free-flow time that is repeated. -/
example : ∃ W, Reachable (fun W => ExactOK (fun _ => 20) W ∧ ∀ v, v < W.nVeh → W.V.mode v = .single) W ∧
    W.finalized = true ∧ 0 < W.dt ∧ W.cfg.fl = id ∧ W.L.length 0 = 200 ∧ W.L.vehs 0 = [2, 3] ∧
    W.L.ttInstant 0 = [16, 10, 10, 10, 10, 10] := by
  have h : obs (runChecked physCheck demoCfg (fun _ => 0) (demo2 6)) (fun W => decide (
      W.finalized = true ∧ 0 < W.dt ∧ W.L.length 0 = 200 ∧ W.L.vehs 0 = [2, 3] ∧
      W.L.ttInstant 0 = [16, 10, 10, 10, 10, 10])) = true := by
    decide +kernel
  obtain ⟨W, h1, h2⟩ := obs_ok h
  have hr := runChecked_reachable' (fun W hc hp => physCheck_ok hc hp) h1
  obtain ⟨a, b, c⟩ := of_decide_eq_true h2
  exact ⟨W, hr, a, b, hr.ok.1.exact, c⟩

set_option maxRecDepth 100000 in
/-- The hypotheses of C54 are met: five vehicles have left link 0 after 10 or 15 seconds, the free-flow time
is 10 seconds. -/
example : ∃ W0 W, Reachable Any W0 ∧ W0.finalized = false ∧ W0.cfg = demoCfg ∧ W0.cfg.deltat ≠ 0 ∧
    Relation.ReflTransGen ApiStep (W0.finalize (some 300)) W ∧ 0 < W.nLinks ∧ W.tsize = 60 ∧
    stays 0 W.trace = [(6, 9), (5, 8), (4, 6), (2, 5), (1, 3)] ∧
    (W.L.ttActual 0).take 7 = [10, 10, 15, 15, 10, 15, 15] := by
  have h : obs (runCmds demoCfg (fun _ => 0) ((demo2 0).dropLast)) (fun W0 => decide (
      W0.finalized = false ∧ W0.cfg.deltat ≠ 0) &&
      obs ((List.replicate 12 Cmd.tick).foldlM Cmd.run (W0.finalize (some 300))) (fun W => decide (
        0 < W.nLinks ∧ W.tsize = 60 ∧ stays 0 W.trace = [(6, 9), (5, 8), (4, 6), (2, 5), (1, 3)] ∧
        (W.L.ttActual 0).take 7 = [10, 10, 15, 15, 10, 15, 15]))) = true := by
    decide +kernel
  obtain ⟨W0, h1, h2⟩ := obs_ok h
  simp only [Bool.and_eq_true] at h2
  obtain ⟨W, h3, h4⟩ := obs_ok h2.2
  have h5 := of_decide_eq_true h2.1
  exact ⟨W0, W, runCmds_reachable h1, h5.1, runCmds_cfg h1, h5.2,
    foldlM_inv (P := Relation.ReflTransGen ApiStep (W0.finalize (some 300)))
      (fun _ _ _ _ hr hc => hr.tail (Cmd.run_api hc)) .refl h3, of_decide_eq_true h4⟩

end UX
