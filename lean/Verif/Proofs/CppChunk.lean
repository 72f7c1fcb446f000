import Verif.Proofs.CppInvStep

/-!
# Departures and chunks of `main_loop` of the C++ engine
-/

namespace UX.Cpp
open CWorld

/-- Globals that a time step does not change. -/
def CGlob.fix (g : CGlob) : CGlob :=
  { g with timestep := 0, pref := fun _ _ => 0, active := fun _ => false, adj := fun _ _ => none
           next := fun _ _ => none, dist := fun _ _ => none, living := fun _ => false
           running := fun _ => false }

theorem CGlob.fix_fl {g g' : CGlob} (h : g.fix = g'.fix) : g.fl = g'.fl :=
  show g.fix.fl = g'.fix.fl by rw [h]
theorem CGlob.fix_deltaT {g g' : CGlob} (h : g.fix = g'.fix) : g.deltaT = g'.deltaT :=
  show g.fix.deltaT = g'.fix.deltaT by rw [h]
theorem CGlob.fix_totalSteps {g g' : CGlob} (h : g.fix = g'.fix) : g.totalSteps = g'.totalSteps :=
  show g.fix.totalSteps = g'.fix.totalSteps by rw [h]
theorem CGlob.fix_nVehs {g g' : CGlob} (h : g.fix = g'.fix) : g.nVehs = g'.nVehs :=
  show g.fix.nVehs = g'.fix.nVehs by rw [h]

theorem routeStep_fix (W : CWorld) : W.routeStep.g.fix = W.g.fix := by
  unfold CWorld.routeStep
  split
  · split <;> rfl
  · split <;> rfl

theorem SamePar.depTime {W W' : CWorld} (s : SamePar W W') (v : ℕ) :
    (W'.veh v).depTime = (W.veh v).depTime :=
  show (W'.veh v).par.depTime = (W.veh v).par.depTime by rw [s.veh]

theorem homeVeh_state {W : CWorld} {v : ℕ} (hst : (W.veh v).state = .home) :
    ((W.vehUpdate v none).veh v).state = if (W.veh v).depTime ≤ W.now then .wait else .home := by
  have hc := core_logData W v none
  have h1 : ((W.logData v none).veh v).state = .home := by rw [core_state hc]; exact hst
  have h2 : ((W.logData v none).veh v).depTime = (W.veh v).depTime := (samePar_logData W v none).1.depTime v
  have h3 : (W.logData v none).now = W.now := by unfold now; rw [(samePar_logData W v none).2]
  unfold vehUpdate
  simp only [h1, h2, h3]
  split
  · rw [setN_veh, setV_veh, if_pos rfl]
  · exact h1

theorem homePass_state (xs : List ℕ) (hnd : xs.Nodup) {W : CWorld} (r : Rest W)
    (hx : ∀ v ∈ xs, v < W.g.nVehs ∧ (W.veh v).state = .home) {v : ℕ} (hv : v ∈ xs) :
    ((xs.foldl (fun W v => W.vehUpdate v none) W).veh v).state =
      if (W.veh v).depTime ≤ W.now then .wait else .home := by
  induction xs generalizing W with
  | nil => simp at hv
  | cons a t ih =>
    obtain ⟨ha, ht⟩ := List.nodup_cons.1 hnd
    obtain ⟨p, q, g, e⟩ := r.homeVeh (hx a (by simp)).1 (hx a (by simp)).2
    have hx' : ∀ w ∈ t, w < (W.vehUpdate a none).g.nVehs ∧ ((W.vehUpdate a none).veh w).state = .home :=
      fun w hw => by rw [g, e w (fun h => ha (h ▸ hw))]; exact hx w (by simp [hw])
    rw [List.foldl_cons]
    rcases List.mem_cons.1 hv with rfl | hv
    · obtain ⟨_, _, _, e'⟩ := p.homePass t ht hx'
      rw [e' v ha]
      exact homeVeh_state (hx v (by simp)).2
    · rw [ih ht p hx' hv, q.depTime]
      unfold now
      rw [g]

/-- States and globals across one time step. -/
structure StepKeep2 (home : List ℕ) (W W' : CWorld) : Prop where
  fix : W'.g.fix = W.g.fix
  stay : ∀ v, (W'.veh v).state = .home → (W.veh v).state = .home

theorem Rest.stepWith2 {W : CWorld} (r : Rest W) (σ : Sched) (hσ : σ.run.Nodup) (home : List ℕ)
    (hnd : home.Nodup) (hh : ∀ v ∈ home, v < W.g.nVehs ∧ (W.veh v).state = .home) :
    StepKeep2 home W (CWorld.stepWith σ home W).1 ∧
      ((CWorld.stepWith σ home W).2 = none → ∀ v ∈ home,
        (((CWorld.stepWith σ home W).1.veh v).state =
          if (W.veh v).depTime ≤ W.now then .wait else .home)) := by
  have r0 : Rest W.clearExc := r.congr (core_clearExc W).symm
  obtain ⟨r1, k1⟩ := r0.region σ hσ
  have k := (Keep.clearExc W).trans k1
  unfold CWorld.stepWith
  simp only
  generalize CWorld.region σ W.clearExc = W1 at *
  have hg : W1.g = W.g := k.g
  split
  · exact ⟨⟨by rw [hg], k.stay⟩, fun h => by simp at h⟩
  · have hx : ∀ v ∈ home, v < W1.g.nVehs ∧ (W1.veh v).state = .home := fun v hv => by
      rw [hg, k.home v (hh v hv).2]; exact hh v hv
    obtain ⟨r2, s2, g2, e2⟩ := r1.homePass home hnd hx
    have st := fun v (hv : v ∈ home) => homePass_state home hnd r1 hx hv
    simp only
    generalize home.foldl (fun (W : CWorld) v => W.vehUpdate v none) W1 = W2 at *
    obtain ⟨_, e4, _⟩ := routeStep_same W2.reconcile
    refine ⟨⟨?_, fun v hv => ?_⟩, fun _ v hv => ?_⟩
    · rw [routeStep_fix]
      show W2.g.fix = _
      rw [g2, hg]
    · rw [e4] at hv
      by_cases hm : v ∈ home
      · exact (hh v hm).2
      · have : (W2.veh v).state = .home := hv
        rw [e2 v hm] at this
        exact k.stay v this
    · rw [e4]
      show (W2.veh v).state = _
      rw [st v hv, k.samePar.depTime]
      unfold now
      rw [hg]

/-! ## Runs -/

theorem loopFrom_add (sched : ℕ → CWorld → Sched) (buckets : ℕ → List ℕ) (j k : ℕ) {W W1 : CWorld}
    (h : loopFrom sched buckets j W = (W1, none)) :
    loopFrom sched buckets (j + k) W = loopFrom sched buckets k W1 := by
  induction j generalizing W with
  | zero =>
    unfold loopFrom at h
    rw [Nat.zero_add, (Prod.mk.inj h).1]
  | succ j ih =>
    rw [show j + 1 + k = (j + k) + 1 by omega]
    rw [loopFrom] at h ⊢
    cases he : stepWith (sched W.g.timestep W) (buckets W.g.timestep) W with
    | mk V e =>
      rw [he] at h
      cases e with
      | some e => simp at h
      | none => exact ih h

theorem loopFrom_congr (sched : ℕ → CWorld → Sched) {b b' : ℕ → List ℕ} (k : ℕ) {W : CWorld}
    (h : ∀ t, W.g.timestep ≤ t → b t = b' t) :
    loopFrom sched b k W = loopFrom sched b' k W := by
  induction k generalizing W with
  | zero => rfl
  | succ k ih =>
    unfold loopFrom
    rw [h _ le_rfl]
    split
    · rfl
    · exact ih (fun t ht => h t (by have : W.g.timestep + 1 ≤ t := ht; omega))

/-- What a completed run says about vehicles that were at home. -/
structure RunKeep (b : ℕ → List ℕ) (W W' : CWorld) : Prop where
  rest : Rest W'
  fix : W'.g.fix = W.g.fix
  par : SamePar W W'
  time : W.g.timestep ≤ W'.g.timestep
  stay : ∀ v, (W'.veh v).state = .home → (W.veh v).state = .home
  kept : ∀ v, (∀ t, W.g.timestep ≤ t → t < W'.g.timestep → v ∉ b t) → (W.veh v).state = .home →
    W'.veh v = W.veh v
  left : ∀ t, W.g.timestep ≤ t → t < W'.g.timestep → ∀ v ∈ b t,
    (W.veh v).depTime ≤ W.g.fl (t * W.g.deltaT) → (W'.veh v).state ≠ .home

theorem Rest.runKeep {sched : ℕ → CWorld → Sched} (hs : ∀ t W, Rest W → (sched t W).run.Nodup)
    {b : ℕ → List ℕ} (hb : ∀ t, (b t).Nodup)
    (hd : ∀ s t v, s ≠ t → v ∈ b s → v ∉ b t) (k : ℕ) {W W' : CWorld} (r : Rest W)
    (hh : ∀ t, W.g.timestep ≤ t → ∀ v ∈ b t, v < W.g.nVehs ∧ (W.veh v).state = .home)
    (h : CWorld.loopFrom sched b k W = (W', none)) :
    RunKeep b W W' ∧ W'.g.timestep = W.g.timestep + k := by
  induction k generalizing W with
  | zero =>
    unfold CWorld.loopFrom at h
    obtain rfl := (Prod.mk.inj h).1
    exact ⟨⟨r, rfl, SamePar.refl _, le_rfl, fun _ h => h, fun _ _ _ => rfl, fun t h1 h2 => by omega⟩, rfl⟩
  | succ k ih =>
    have hns := hs W.g.timestep W r
    obtain ⟨r1, k1⟩ := r.stepWith (sched W.g.timestep W) hns (b W.g.timestep) (hb _) (hh _ le_rfl)
    obtain ⟨k2, l2⟩ := r.stepWith2 (sched W.g.timestep W) hns (b W.g.timestep) (hb _) (hh _ le_rfl)
    unfold CWorld.loopFrom at h
    split at h
    · simp at h
    · rename_i W1 he
      rw [he] at r1 k1 k2 l2
      simp only at r1 k1 k2 l2
      have hn := k1.nVehs
      have hh1 : ∀ t, W.g.timestep + 1 ≤ t → ∀ v ∈ b t, v < W1.g.nVehs ∧ (W1.veh v).state = .home := by
        intro t ht v hv
        obtain ⟨p, q⟩ := hh t (by omega) v hv
        have hv' := k1.home v (fun h => hd _ _ v (by omega) h hv) q
        exact ⟨by rw [hn]; exact p, by rw [hv']; exact q⟩
      obtain ⟨q, qt⟩ := ih (W := { W1 with g := { W1.g with timestep := W.g.timestep + 1 } })
        (r1.setG _ rfl rfl rfl rfl rfl) hh1 h
      have qt' : W'.g.timestep = W.g.timestep + 1 + k := qt
      have qp : SamePar W1 W' := ⟨q.par.node, q.par.link, q.par.veh⟩
      refine ⟨⟨q.rest, q.fix.trans k2.fix, k1.par.trans qp, by omega,
        fun v hv => k2.stay v (q.stay v hv), fun v hv hst => ?_, fun t h1 h2 v hv hdep => ?_⟩, by omega⟩
      · have e1 := k1.home v (hv _ le_rfl (by omega)) hst
        have e2 := q.kept v (fun t (ht : W.g.timestep + 1 ≤ t) ht' => hv t (by omega) ht')
          (show (W1.veh v).state = .home by rw [e1]; exact hst)
        rw [e2]; exact e1
      · by_cases e : t = W.g.timestep
        · subst e
          intro hc
          have hc1 : (W1.veh v).state = .home := q.stay v hc
          rw [l2 trivial v hv, if_pos (show (W.veh v).depTime ≤ W.now from hdep)] at hc1
          simp at hc1
        · refine q.left t (show W.g.timestep + 1 ≤ t by omega) h2 v hv ?_
          show (W1.veh v).depTime ≤ W1.g.fl (t * W1.g.deltaT)
          rw [k1.par.depTime, CGlob.fix_fl k2.fix, CGlob.fix_deltaT k2.fix]
          exact hdep

/-! ## Buckets -/

/-- `ts0` before it is clamped to the start of the chunk. -/
def firstStep (W : CWorld) (dep : ℚ) : ℤ :=
  bumpStep W dep (W.g.totalSteps + 1 - (pyInt (W.g.fl (dep / W.g.deltaT))).toNat +
    (-(pyInt (W.g.fl (dep / W.g.deltaT)))).toNat) (pyInt (W.g.fl (dep / W.g.deltaT)))

theorem departStep_eq (W : CWorld) (s : ℕ) (dep : ℚ) : W.departStep s dep = (max (firstStep W dep) s).toNat := rfl

theorem bumpStep_spec (W : CWorld) (dep : ℚ) (k : ℕ) (t : ℤ) :
    t ≤ bumpStep W dep k t ∧ (dep ≤ W.g.fl (bumpStep W dep k t * W.g.deltaT) ∨ bumpStep W dep k t = t + k) ∧
      ∀ s, t ≤ s → s < bumpStep W dep k t → W.g.fl (s * W.g.deltaT) < dep := by
  induction k generalizing t with
  | zero => exact ⟨le_rfl, Or.inr (by simp [bumpStep]), fun s h h' => by simp [bumpStep] at h'; omega⟩
  | succ k ih =>
    unfold bumpStep
    split
    · rename_i hlt
      obtain ⟨a, b, c⟩ := ih (t + 1)
      refine ⟨by omega, b.imp id (fun h => by rw [h]; push_cast; ring), fun s h h' => ?_⟩
      by_cases e : s = t
      · rw [e]; exact hlt
      · exact c s (by omega) h'
    · rename_i hlt
      exact ⟨le_rfl, Or.inl (not_lt.1 hlt), fun s h h' => by omega⟩

theorem firstStep_spec (W : CWorld) (dep : ℚ) :
    dep ≤ W.g.fl (firstStep W dep * W.g.deltaT) ∨ (W.g.totalSteps : ℤ) < firstStep W dep := by
  obtain ⟨a, b, _⟩ := bumpStep_spec W dep (W.g.totalSteps + 1 - (pyInt (W.g.fl (dep / W.g.deltaT))).toNat +
    (-(pyInt (W.g.fl (dep / W.g.deltaT)))).toNat) (pyInt (W.g.fl (dep / W.g.deltaT)))
  rcases b with b | b
  · exact Or.inl b
  · right
    unfold firstStep
    rw [b]
    omega

theorem firstStep_congr {W W' : CWorld} (h : W'.g.fix = W.g.fix) (dep : ℚ) :
    firstStep W' dep = firstStep W dep := by
  have hb : ∀ k t, bumpStep W' dep k t = bumpStep W dep k t := by
    intro k
    induction k with
    | zero => intro t; rfl
    | succ k ih => intro t; unfold bumpStep; rw [ih, CGlob.fix_fl h, CGlob.fix_deltaT h]
  unfold firstStep
  rw [hb, CGlob.fix_fl h, CGlob.fix_deltaT h, CGlob.fix_totalSteps h]

theorem mainLoop_keep {W W' : CWorld} (r : Rest W) {sched : ℕ → CWorld → Sched}
    (hs : ∀ t W, Rest W → (sched t W).run.Nodup) {e : ℕ} (h : CWorld.mainLoop sched W e = (W', none)) :
    RunKeep (W.bucket W.g.timestep) W W' ∧
      W'.g.timestep = W.g.timestep + (min e W.g.totalSteps - W.g.timestep) := by
  refine r.runKeep hs (fun t => bucket_nodup W _ t) ?_ _ ?_ h
  · intro s t v hne h h'
    exact hne ((mem_bucket.1 h).2.2.symm.trans (mem_bucket.1 h').2.2)
  · intro t _ v hv
    exact ⟨(mem_bucket.1 hv).1, (mem_bucket.1 hv).2.1⟩

/-- A bucket that is due holds vehicles whose departure time has come. -/
theorem bucket_due {W : CWorld} (hm : Monotone W.g.fl) (hdt : 0 ≤ W.g.deltaT) {s t v : ℕ}
    (hv : v ∈ W.bucket s t) (ht : t < W.g.totalSteps) : (W.veh v).depTime ≤ W.g.fl (t * W.g.deltaT) := by
  obtain ⟨_, _, h⟩ := mem_bucket.1 hv
  rw [departStep_eq] at h
  rcases firstStep_spec W (W.veh v).depTime with h' | h'
  · refine h'.trans (hm (mul_le_mul_of_nonneg_right ?_ hdt))
    have : firstStep W (W.veh v).depTime ≤ (t : ℤ) := by omega
    exact_mod_cast this
  · omega

/-- Running in two chunks is the same as running in one. -/
theorem mainLoop_chunk {W W1 : CWorld} (r : Rest W) {sched : ℕ → CWorld → Sched}
    (hs : ∀ t W, Rest W → (sched t W).run.Nodup) (hm : Monotone W.g.fl) (hdt : 0 ≤ W.g.deltaT)
    {a b : ℕ} (hab : a ≤ b) (h : CWorld.mainLoop sched W a = (W1, none)) :
    CWorld.mainLoop sched W1 b = CWorld.mainLoop sched W b := by
  obtain ⟨k, kt⟩ := mainLoop_keep r hs h
  have htot := CGlob.fix_totalSteps k.fix
  by_cases hT : min a W.g.totalSteps ≤ W.g.timestep
  · have h0 : min a W.g.totalSteps - W.g.timestep = 0 := by omega
    unfold CWorld.mainLoop at h
    rw [h0] at h
    unfold CWorld.loopFrom at h
    rw [(Prod.mk.inj h).1]
  · have kt' : W1.g.timestep = min a W.g.totalSteps := by omega
    have e1 : min b W.g.totalSteps - W.g.timestep =
        (min a W.g.totalSteps - W.g.timestep) + (min b W.g.totalSteps - W1.g.timestep) := by omega
    have e2 : CWorld.mainLoop sched W b =
        CWorld.loopFrom sched (W.bucket W.g.timestep) (min b W.g.totalSteps - W1.g.timestep) W1 := by
      unfold CWorld.mainLoop at h ⊢
      rw [e1]
      exact loopFrom_add _ _ _ _ h
    rw [e2]
    unfold CWorld.mainLoop
    rw [htot]
    refine loopFrom_congr sched _ (fun t ht => ?_)
    -- the buckets agree
    unfold bucket
    rw [CGlob.fix_nVehs k.fix]
    refine List.filter_congr (fun v hv => ?_)
    have hvn : v < W.g.nVehs := List.mem_range.1 hv
    rw [← Bool.decide_and, ← Bool.decide_and]
    refine decide_eq_decide.2 ?_
    rw [departStep_eq, departStep_eq, firstStep_congr k.fix, k.par.depTime]
    constructor
    · rintro ⟨h1, h2⟩
      have h0 := k.stay v h1
      refine ⟨h0, ?_⟩
      by_contra hne
      -- otherwise the vehicle left during the first chunk
      have hmem : v ∈ W.bucket W.g.timestep (max (firstStep W (W.veh v).depTime) W.g.timestep).toNat :=
        mem_bucket.2 ⟨hvn, h0, departStep_eq _ _ _⟩
      have hlt : (max (firstStep W (W.veh v).depTime) W.g.timestep).toNat < W1.g.timestep := by omega
      exact k.left _ (by omega) hlt v hmem (bucket_due hm hdt hmem (by omega)) h1
    · rintro ⟨h1, h2⟩
      have hk := k.kept v (fun t' _ ht' hb => by
        have := (mem_bucket.1 hb).2.2
        rw [departStep_eq] at this
        omega) h1
      exact ⟨by rw [hk]; exact h1, by omega⟩

end UX.Cpp
