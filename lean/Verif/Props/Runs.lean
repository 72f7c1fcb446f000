import Verif.Proofs.Taxi
import Verif.Props.Demo

/-!
# Properties of runs: splitting (C21), stopping (C22), independence of the seed (C23)
-/

namespace UX
open World

/-! ## C21 -/

/-- C21: consecutive `exec_simulation` calls (any arguments) that raise nothing amount to consecutive
time steps, none skipped and none repeated: the world they lead to is the one reached by exactly
`W1.T - W.T` time steps, except for the boarding and alighting stamps of trip requests (and the clock
`W.TIME`, which the calls set to the current time). What is missing: the stamps, see
`C21_stamps_false`. -/
theorem C21_steps_partial {W W1 : World} (h : Reachable Any W) (hf : W.finalized = true)
    {us : List World.Until} (h1 : execs W us = .ok W1) :
    W.T ≤ W1.T ∧ W1.T ≤ W1.tsize ∧ ∃ W2, ticks (W1.T - W.T) W = .ok W2 ∧
      SameButStamps { W1 with time := W2.now } { W2 with time := W2.now } := by
  obtain ⟨j, W2, hr⟩ := execs_run h hf us h1
  obtain ⟨r1, r2, r3, r4, r5⟩ := ticks_reach h hf hr.fit hr.ticks
  have e : W1.T = W2.T := by
    obtain ⟨h1, r, t, g, a, rfl, h2, h3⟩ := hr.up; rfl
  refine ⟨by omega, (T_le hr.reach).1 hr.fin, W2, ?_, ?_⟩
  · have : W1.T - W.T = j := by omega
    rw [this]; exact hr.ticks
  · obtain ⟨h1, r, t, g, a, rfl, h2, h3⟩ := hr.up
    rw [h3 rfl]
    rfl

theorem exec_toEnd {W : World} (h : Reachable Any W) (hf : W.finalized = true) :
    (W.exec .toEnd).map (·.1) = if W.T = W.tsize then .ok W
      else (ticks (W.tsize - W.T) W).map (fun W' => { W' with time := W'.now }) := by
  have hT := (T_le h).1 hf
  rw [exec_eq h hf]
  have e : W.endTs .toEnd = W.tsize := rfl
  rw [e]
  by_cases hc : W.T = W.tsize
  · rw [if_pos hc, if_pos ⟨by rw [hc], rfl⟩]; rfl
  · rw [if_neg hc, if_neg (by omega), if_neg (by omega)]
    have : stepsOf W (W.tsize : ℤ) = W.tsize - W.T := by unfold stepsOf; omega
    rw [this]
    cases ticks (W.tsize - W.T) W <;> rfl

/-- C21: a run split into any sequence of calls followed by a call to the end, and one single call to the
end, raise the same exception or lead to the same world up to the stamps of trip requests. -/
theorem C21_split_partial {W W1 : World} (h : Reachable Any W) (hf : W.finalized = true)
    {us : List World.Until} (h1 : execs W us = .ok W1) :
    RM SameButStamps ((W.exec .toEnd).map (·.1)) ((W1.exec .toEnd).map (·.1)) := by
  obtain ⟨j, W2, hr⟩ := execs_run h hf us h1
  obtain ⟨r1, r2, r3, r4, r5⟩ := ticks_reach h hf hr.fit hr.ticks
  have e : W1.T = W2.T ∧ W1.tsize = W2.tsize := by
    obtain ⟨h1, r, t, g, a, rfl, h2, h3⟩ := hr.up; exact ⟨rfl, rfl⟩
  rw [exec_toEnd h hf, exec_toEnd hr.reach hr.fin]
  rcases hr.time with ⟨rfl, rfl⟩ | ⟨hj, htime⟩
  · exact RM.refl (Q := SameButStamps) (fun _ => rfl)
  · have hfit := hr.fit
    rw [if_neg (by omega)]
    have es : W.tsize - W.T = j + (W1.tsize - W1.T) := by omega
    rw [es, ticks_add, hr.ticks]
    by_cases hc : W1.T = W1.tsize
    · rw [if_pos hc]
      have : W1.tsize - W1.T = 0 := by omega
      rw [this]
      refine RM.ok ?_
      obtain ⟨h1, r, t, g, a, rfl, h2, h3⟩ := hr.up
      have htime' : t = W2.now := htime
      rw [h3 rfl, htime']
      rfl
    · rw [if_neg hc]
      refine RM.map (ticks_upTo (.inl rfl) _ hr.up) ?_
      rintro A B ⟨h1, r, t, g, a, rfl, h2, h3⟩
      rw [h3 rfl]
      rfl

/-- C21: if no taxi event is pending (in particular in scenarios without taxis), the split run and the
single run are exactly equal. -/
theorem C21_split_exact_partial {W W1 : World} (h : Reachable Any W) (hf : W.finalized = true)
    (h0 : ∀ v n, W.V.nodeEvent v n = none) {us : List World.Until} (h1 : execs W us = .ok W1) :
    (W1.exec .toEnd).map (·.1) = (W.exec .toEnd).map (·.1) := by
  have key := C21_split_partial h hf h1
  obtain ⟨j, W2, hr⟩ := execs_run h hf us h1
  have hH : ∀ {A B : World}, Reachable Any A → A.finalized = true → NoEvents A →
      (A.exec .toEnd).map (·.1) = .ok B → B.H = A.H := by
    intro A B hA hfA hn hB
    have hT := (T_le hA).1 hfA
    rw [exec_toEnd hA hfA] at hB
    split at hB
    · cases hB; rfl
    · rw [map_ok] at hB
      obtain ⟨B1, hB, rfl⟩ := hB
      exact (ticks_noEvents hA hfA (by omega) hB hn).2
  cases hm : (W.exec .toEnd).map (·.1) with
  | error e => rw [hm] at key; cases hm' : (W1.exec .toEnd).map (·.1) with
    | error e' => rw [hm'] at key; cases key; rfl
    | ok B => rw [hm'] at key; cases key
  | ok A => rw [hm] at key; cases hm' : (W1.exec .toEnd).map (·.1) with
    | error e' => rw [hm'] at key; cases key
    | ok B =>
      rw [hm'] at key
      cases key with
      | ok key =>
        have e1 := hH h hf h0 hm
        have e2 := hH hr.reach hr.fin (hr.noEv h0).1 hm'
        rw [(hr.noEv h0).2, ← e1] at e2
        congr 1
        unfold SameButStamps at key
        cases A; cases B
        simp only at e2
        subst e2
        simp only [World.mk.injEq] at key ⊢
        simp_all

/-- C21 starting from a scenario that is not finalized yet: the first call finalizes it. -/
theorem C21_unfinalized {W : World} (hf : W.finalized = false) (u : World.Until) (us : List World.Until) :
    execs W (u :: us) = execs (W.finalize none) (u :: us) := by
  unfold execs
  rw [List.foldlM_cons, List.foldlM_cons, exec_unfinal hf]

/-- A taxi with a request, ready to run. -/
def taxiDemo : List Cmd :=
  [.node { name := "a" }, .node { name := "b" },
   .link { startN := .obj 0, endN := .obj 1, length := 200 },
   .link { startN := .obj 1, endN := .obj 0, length := 200 },
   .veh { orig := .obj 0, dest := none, dep := .step 0, mode := .taxi },
   .fin (some 50), .request (.obj 1) (.obj 0) 0, .assign 0 0]

set_option maxRecDepth 100000 in
/-- C21 is false for taxi time stamps: `W.TIME`, read by `get_on_taxi`, is one step behind during a run
(5 s here), but not in the first step after a split (10 s). -/
theorem C21_stamps_false : ∃ (W W1 W2 : World) (us : List World.Until), Reachable Any W ∧
    execs W [.toEnd] = .ok W1 ∧ execs W us = .ok W2 ∧ W1.T = W2.T ∧ W1.T = W1.tsize ∧
    W1.H.getTaxiTime 0 = some 5 ∧ W2.H.getTaxiTime 0 = some 10 := by
  have h : obs (runCmds demoCfg (fun _ => 0) taxiDemo) (fun W =>
      match execs W [.toEnd], execs W (List.replicate 10 (.duration2 5)) with
      | .ok W1, .ok W2 => decide (W1.T = W2.T ∧ W1.T = W1.tsize ∧
        W1.H.getTaxiTime 0 = some 5 ∧ W2.H.getTaxiTime 0 = some 10)
      | _, _ => false) = true := by decide +kernel
  obtain ⟨W, hW, h⟩ := obs_ok h
  split at h
  · rename_i W1 W2 h1 h2
    exact ⟨W, W1, W2, _, runCmds_reachable hW, h1, h2, by simpa using h⟩
  · cases h

set_option maxRecDepth 100000 in
/-- The hypotheses of the C21 theorems are met by a run that is really split. -/
example : ∃ (W W1 : World), Reachable Any W ∧ W.finalized = true ∧ (∀ v n, W.V.nodeEvent v n = none) ∧
    execs W [.duration2 20, .duration 5, .untilT 100] = .ok W1 ∧ W1.T = 21 := by
  have h : obs (runCmds demoCfg (fun _ => 0) (demo1 0)) (fun W => W.finalized && decide (W.H.nReq = 0) &&
      obs (execs W [.duration2 20, .duration 5, .untilT 100]) (fun W1 => decide (W1.T = 21))) = true := by
    decide +kernel
  obtain ⟨W, hW, h⟩ := obs_ok h
  rw [Bool.and_eq_true, Bool.and_eq_true] at h
  obtain ⟨⟨h1, h0⟩, h2⟩ := h
  obtain ⟨W1, h3, h4⟩ := obs_ok h2
  exact ⟨W, W1, runCmds_reachable hW, h1, (runCmds_reachable hW).taxi.noEvents (by simpa using h0), h3,
    by simpa using h4⟩

/-! ## C22 -/

/-- C22: a call that returns, returns 1 exactly when all `TSIZE` steps have been executed, otherwise 0;
it never goes beyond the horizon. -/
theorem C22_return {W W' : World} (h : Reachable Any W) {u : World.Until} {r : ℕ}
    (he : W.exec u = .ok (W', r)) :
    (r = 1 ↔ W'.T = W'.tsize) ∧ (r = 0 ↔ W'.T < W'.tsize) ∧ W'.T ≤ W'.tsize ∧ W.T ≤ W'.T ∧
      (W.finalized = true → W'.tsize = W.tsize) ∧ W'.finalized = true := by
  have key : ∀ {W : World}, Reachable Any W → W.finalized = true → W.exec u = .ok (W', r) →
      (r = 1 ↔ W'.T = W'.tsize) ∧ (r = 0 ↔ W'.T < W'.tsize) ∧ W'.T ≤ W'.tsize ∧ W.T ≤ W'.T ∧
      W'.tsize = W.tsize ∧ W'.finalized = true := by
    intro W h hf he
    have hT := (T_le h).1 hf
    rw [exec_eq h hf] at he
    split at he
    · cases he; refine ⟨?_, ?_, hT, le_refl _, rfl, hf⟩ <;> omega
    · rename_i c1
      split at he
      · cases he
      · rename_i c2
        rw [map_ok] at he
        obtain ⟨A, hA, he⟩ := he
        obtain ⟨k0, k1⟩ := stepsOf_pos h hf c1 c2
        obtain ⟨r1, r2, r3, r4, r5⟩ := ticks_reach h hf k1 hA
        cases he
        show ((if A.T = A.tsize then 1 else 0) = 1 ↔ A.T = A.tsize) ∧
          ((if A.T = A.tsize then 1 else 0) = 0 ↔ A.T < A.tsize) ∧ A.T ≤ A.tsize ∧ W.T ≤ A.T ∧
          A.tsize = W.tsize ∧ A.finalized = true
        refine ⟨?_, ?_, ?_, ?_, r4, r2⟩
        · split <;> simp_all
        · split
          · simp; omega
          · simp; omega
        · omega
        · omega
  cases hf : W.finalized with
  | true => obtain ⟨a, b, c, d, e, f⟩ := key h hf he; exact ⟨a, b, c, d, fun _ => e, f⟩
  | false =>
    rw [exec_unfinal hf] at he
    obtain ⟨a, b, c, d, e, f⟩ := key (.next h (.finalize hf) trivial) (finalize_T W none).2 he
    refine ⟨a, b, c, ?_, (fun h => by cases h), f⟩
    rw [(T_le h).2 hf]; exact Nat.zero_le _

/-- C22: once all steps have been executed, every further call changes nothing (it returns 1 or raises). -/
theorem C22_done {W : World} (h : Reachable Any W) (hf : W.finalized = true) (hT : W.T = W.tsize)
    (u : World.Until) : W.exec u = .ok (W, 1) ∨ W.exec u = .error .exception := by
  rw [exec_eq h hf]
  have hle : W.endTs u ≤ W.tsize := by
    unfold World.endTs
    split
    · exact le_refl _
    all_goals exact min_le_right _ _
  by_cases hc : (W.T : ℤ) = W.endTs u ∧ W.endTs u = W.tsize
  · rw [if_pos hc]; exact .inl rfl
  · rw [if_neg hc, if_pos (by omega)]; exact .inr rfl

/-- C22: a call before the horizon with a nonnegative `duration_t` (or none, or `until_t` not in the past,
or a `duration_t2` of at least one step) does not raise by itself: it executes exactly the given number
of steps, cut at the horizon, and raises only if one of these steps does. -/
theorem C22_steps {W : World} (h : Reachable Any W) (hf : W.finalized = true) (hT : W.T < W.tsize)
    (u : World.Until) (k : ℕ)
    (hk : match u with
      | .toEnd => k = W.tsize - W.T
      | .duration d => W.cfg.fl (d / W.cfg.deltat) < k ∧ (k : ℚ) ≤ W.cfg.fl (d / W.cfg.deltat) + 1 ∧ 0 < k
      | .duration2 d => (k : ℚ) ≤ W.cfg.fl (d / W.cfg.deltat) ∧ W.cfg.fl (d / W.cfg.deltat) < k + 1 ∧ 0 < k
      | .untilT t => (W.T + k : ℚ) ≤ W.cfg.fl (t / W.cfg.deltat) + 1 ∧
          W.cfg.fl (t / W.cfg.deltat) < W.T + k ∧ 0 < k) :
    (W.exec u).map (·.1) = (ticks (min k (W.tsize - W.T)) W).map (fun W' => { W' with time := W'.now }) := by
  have fl_eq : ∀ {q : ℚ} {m : ℤ}, 0 ≤ m → (m : ℚ) ≤ q → q < m + 1 → pyInt q = m := by
    intro q m h0 h1 h2
    have : ⌊q⌋ = m := Int.floor_eq_iff.2 ⟨h1, h2⟩
    have hq : 0 ≤ q := le_trans (by exact_mod_cast h0) h1
    unfold pyInt
    rw [if_pos hq, this]
  have key : ∀ e : ℤ, W.endTs u = e → (W.T : ℤ) ≤ e → (e = W.tsize → k + W.T ≥ W.tsize) →
      (e < W.tsize → e + 1 = W.T + k) →
      (W.exec u).map (·.1) = (ticks (min k (W.tsize - W.T)) W).map (fun W' => { W' with time := W'.now }) := by
    intro e he h1 h2 h3
    have hle : W.endTs u ≤ W.tsize := by
      unfold World.endTs
      split
      · exact le_refl _
      all_goals exact min_le_right _ _
    rw [exec_eq h hf, he, if_neg (by omega), if_neg (by omega)]
    have : stepsOf W e = min k (W.tsize - W.T) := by unfold stepsOf; omega
    rw [this]
    cases ticks (min k (W.tsize - W.T)) W <;> rfl
  cases u with
  | toEnd => exact key _ rfl (by show (W.T : ℤ) ≤ W.tsize; omega) (by dsimp only at hk; omega) (by intro h; simp [World.endTs] at h)
  | duration d =>
    obtain ⟨h1, h2, h3⟩ := hk
    have := fl_eq (q := W.cfg.fl (d / W.cfg.deltat)) (m := (k : ℤ) - 1) (by omega) (by push_cast; linarith)
      (by push_cast; linarith)
    refine key (min (W.T + ((k : ℤ) - 1)) W.tsize) ?_ ?_ ?_ ?_
    · show min ((W.T : ℤ) + pyInt (W.cfg.fl (d / W.cfg.deltat))) W.tsize = _
      rw [this]
    all_goals omega
  | duration2 d =>
    obtain ⟨h1, h2, h3⟩ := hk
    have := fl_eq (q := W.cfg.fl (d / W.cfg.deltat)) (m := (k : ℤ)) (by omega) (by push_cast; linarith)
      (by push_cast; linarith)
    refine key (min (W.T + (k : ℤ) - 1) W.tsize) ?_ ?_ ?_ ?_
    · show min ((W.T : ℤ) + pyInt (W.cfg.fl (d / W.cfg.deltat)) - 1) W.tsize = _
      rw [this]
    all_goals omega
  | untilT t =>
    obtain ⟨h1, h2, h3⟩ := hk
    have := fl_eq (q := W.cfg.fl (t / W.cfg.deltat)) (m := (W.T + k : ℤ) - 1) (by omega) (by push_cast; linarith)
      (by push_cast; linarith)
    refine key (min ((W.T + k : ℤ) - 1) W.tsize) ?_ ?_ ?_ ?_
    · show min (pyInt (W.cfg.fl (t / W.cfg.deltat))) W.tsize = _
      rw [this]
    all_goals omega

/-- C22: `check_simulation_ongoing` is true exactly as long as not all steps have been executed. -/
theorem C22_ongoing {W : World} :
    W.ongoing = true ↔ W.finalized = false ∨ W.T < W.tsize := by
  unfold World.ongoing
  simp [Nat.succ_le_iff]

/-- C22: after a call that returned 1 the simulation is not ongoing, after 0 it is. -/
theorem C22_ongoing_exec {W W' : World} (h : Reachable Any W) {u : World.Until} {r : ℕ}
    (he : W.exec u = .ok (W', r)) : (r = 1 ↔ W'.ongoing = false) ∧ (r = 0 ↔ W'.ongoing = true) := by
  obtain ⟨a, b, c, d, e, f⟩ := C22_return h he
  rw [← Bool.not_eq_true, C22_ongoing, f]
  constructor
  · rw [a]; simp; omega
  · rw [b]; simp

/-! ## C23 -/

theorem SameButRng.eq {W W' : World} (h : SameButRng W W') : W' = { W with rng := W'.rng } := by
  unfold SameButRng at h
  have h1 : W' = { ({ W' with rng := fun _ => 0 } : World) with rng := W'.rng } := rfl
  rw [← h] at h1
  exact h1

/-- C23: with `hard_deterministic_mode`, two worlds that differ only in their random generator remain
equal in everything else after any number of time steps (or the same exception is raised at the same
step). -/
theorem C23_seed {W W' : World} (hd : W.cfg.hardDet = true) (h : SameButRng W W') (k : ℕ) :
    RM SameButRng (ticks k W) (ticks k W') := by
  have h' : UpTo W.cfg true false W W' := by
    refine ⟨rfl, W'.rng, W.time, W.H.getTaxiTime, W.H.arrivalTime, ?_, fun _ => ⟨rfl, rfl, rfl⟩, fun h => by cases h⟩
    unfold SameButRng at h
    cases W; cases W'
    simp only [World.mk.injEq] at h
    simp only [World.sub, World.mk.injEq]
    simp_all
  refine (ticks_upTo (.inr hd) k h').mono ?_
  rintro A B ⟨h1, r, t, g, a, rfl, h2, h3⟩
  obtain ⟨rfl, rfl, rfl⟩ := h2 rfl
  rfl

/-- C23 for `exec_simulation`. -/
theorem C23_exec {W W' : World} (hw : Reachable Any W) (hf : W.finalized = true)
    (hd : W.cfg.hardDet = true) (h : SameButRng W W') (u : World.Until) :
    RM (fun p q => p.2 = q.2 ∧ SameButRng p.1 q.1) (W.exec u) (W'.exec u) := by
  have e : W' = { W with rng := W'.rng } := h.eq
  have hw' : Reachable Any W' := by rw [e]; exact .next hw .reseed trivial
  have hf' : W'.finalized = true := by rw [e]; exact hf
  have hend : W'.endTs u = W.endTs u := by rw [e]; rfl
  have hsteps : stepsOf W' = stepsOf W := by rw [e]; rfl
  rw [exec_eq hw hf, exec_eq hw' hf', hend, hsteps]
  have hT : W'.T = W.T ∧ W'.tsize = W.tsize := by rw [e]; exact ⟨rfl, rfl⟩
  rw [hT.1, hT.2]
  split
  · exact .ok ⟨rfl, h⟩
  · split
    · exact .err
    · refine RM.map (C23_seed hd h _) ?_
      intro A B hAB
      have e' : B = { A with rng := B.rng } := hAB.eq
      rw [e']
      exact ⟨rfl, rfl⟩

/-- Two origins merge and diverge again. -/
def mergeDemo (k : ℕ) : List Cmd :=
  [.node { name := "a" }, .node { name := "b" }, .node { name := "m" }, .node { name := "d" },
   .link { startN := .obj 0, endN := .obj 2, length := 100 },
   .link { startN := .obj 1, endN := .obj 2, length := 100 },
   .link { startN := .obj 2, endN := .obj 3, length := 500, name := some "x" },
   .link { startN := .obj 2, endN := .obj 3, length := 500, name := some "y" },
   .veh { orig := .obj 0, dest := some (.obj 3), dep := .step 0 },
   .veh { orig := .obj 1, dest := some (.obj 3), dep := .step 0 },
   .veh { orig := .obj 0, dest := some (.obj 3), dep := .step 0 },
   .veh { orig := .obj 1, dest := some (.obj 3), dep := .step 0 },
   .fin (some 100)] ++ List.replicate k .tick

set_option maxRecDepth 100000 in
/-- The hypotheses of C23 are met by a world with traffic. -/
example : ∃ W W1 : World, Reachable Any W ∧ W.finalized = true ∧ W.cfg.hardDet = true ∧
    SameButRng W { W with rng := fun i => i * 7 + 3 } ∧ ticks 10 W = .ok W1 ∧ W1.V.link 3 = some 2 := by
  have h : obs (runCmds { demoCfg with hardDet := true } (fun _ => 0) (mergeDemo 0)) (fun W =>
      W.finalized && W.cfg.hardDet && obs (ticks 10 W) (fun W1 => decide (W1.V.link 3 = some 2))) = true := by
    decide +kernel
  obtain ⟨W, hW, h⟩ := obs_ok h
  rw [Bool.and_eq_true, Bool.and_eq_true] at h
  obtain ⟨⟨h1, h2⟩, h⟩ := h
  obtain ⟨W1, h3, h4⟩ := obs_ok h
  exact ⟨W, W1, runCmds_reachable hW, h1, h2, rfl, h3, by simpa using h4⟩

set_option maxRecDepth 100000 in
/-- Without `hard_deterministic_mode` the seed matters: the same vehicle takes another route or runs at another time. -/
example : ∃ W W1 W2 : World, W.cfg.hardDet = false ∧ ticks 10 W = .ok W1 ∧
    ticks 10 { W with rng := fun _ => 1 } = .ok W2 ∧ W1.V.link 3 ≠ W2.V.link 3 := by
  have h : obs (runCmds demoCfg (fun _ => 0) (mergeDemo 0)) (fun W => !W.cfg.hardDet &&
      obs (ticks 10 W) (fun W1 => obs (ticks 10 { W with rng := fun _ => 1 }) (fun W2 =>
        decide (W1.V.link 3 ≠ W2.V.link 3)))) = true := by decide +kernel
  obtain ⟨W, hW, h⟩ := obs_ok h
  rw [Bool.and_eq_true] at h
  obtain ⟨h2, h⟩ := h
  obtain ⟨W1, h3, h⟩ := obs_ok h
  obtain ⟨W2, h4, h5⟩ := obs_ok h
  exact ⟨W, W1, W2, by simpa using h2, h3, h4, by simpa using h5⟩

end UX
