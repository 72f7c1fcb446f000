import Verif.Proofs.Stats
import Verif.Spec.Stats
import Verif.Props.Logs

/-!
# Trip statistics (C36, C37)
-/

namespace UX
open World Relation

theorem finished_iff {W : World} (h : Reachable Any W) (hfl : FlOK W.cfg.fl) (hdt : 0 ≤ W.dt) (v : VehId) :
    W.V.travelTime v ≠ -1 ↔ W.V.state v = .ended := by
  obtain ⟨h1, h2, h3⟩ := C09_records h v
  constructor
  · intro ht; by_contra hn; exact ht (h3 hn).2
  · intro he ht
    have hq := (h2 he).1
    have hpos : (0 : ℚ) ≤ ((W.V.arrTime v - W.V.depTime v : ℤ) : ℚ) * W.dt := by
      have : (0 : ℤ) ≤ W.V.arrTime v - W.V.depTime v := by have := (h2 he).2; omega
      exact mul_nonneg (by exact_mod_cast this) hdt
    have := hfl.mono hpos
    rw [hfl.zero] at this
    have h4 : (0 : ℚ) ≤ W.V.travelTime v := by rw [hq]; exact this
    rw [ht] at h4; norm_num at h4

theorem withDest_eq (W : World) :
    ((List.range W.nVeh).filter fun v => (W.odOf v).isSome) = W.withDest := by
  unfold withDest odOf
  refine List.filter_congr fun v _ => ?_
  simp

theorem odDone_isSome {W : World} (h : Reachable Any W) (hfl : FlOK W.cfg.fl) (hdt : 0 ≤ W.dt) (v : VehId) :
    (W.odDone v).isSome = true ↔ (W.V.dest v).isSome = true ∧ W.V.state v = .ended := by
  unfold odDone
  by_cases ht : W.V.travelTime v ≠ -1
  · rw [if_pos ht]
    simp [odOf, (finished_iff h hfl hdt v).1 ht]
  · rw [if_neg ht]
    have : W.V.state v ≠ .ended := fun he => ht ((finished_iff h hfl hdt v).2 he)
    simp [this]

theorem finished_eq {W : World} (h : Reachable Any W) (hfl : FlOK W.cfg.fl) (hdt : 0 ≤ W.dt) :
    ((List.range W.nVeh).filter fun v => (W.odDone v).isSome) = W.finished := by
  unfold finished withDest
  rw [List.filter_filter]
  refine List.filter_congr fun v _ => ?_
  rw [Bool.eq_iff_iff, odDone_isSome h hfl hdt]
  simp [and_comm]

/-- C36: the number of trips is the platoon size times the number of vehicles with a destination. -/
theorem C36_all (W : World) (A : Analyzer) (hA : A.flagOd = false) :
    (A.basicAnalysis W).tripAll = W.dn * W.withDest.length := by
  simp only [Analyzer.basicAnalysis, Analyzer.odAnalysis, hA]
  exact (basic_sums W).1.trans (by rw [withDest_eq])

/-- C36: the number of completed trips counts exactly the finished vehicles. -/
theorem C36_completed {W : World} (h : Reachable Any W) (hfl : FlOK W.cfg.fl) (hdt : 0 ≤ W.dt)
    (A : Analyzer) (hA : A.flagOd = false) :
    (A.basicAnalysis W).tripCompleted = W.dn * W.finished.length := by
  simp only [Analyzer.basicAnalysis, Analyzer.odAnalysis, hA]
  exact (basic_sums W).2.1.trans (by rw [finished_eq h hfl hdt])

/-- C36: total and average travel time of the finished vehicles. If nobody has finished, both are
reported as -1. -/
theorem C36_travel_time {W : World} (h : Reachable Any W) (hfl : FlOK W.cfg.fl) (hdt : 0 ≤ W.dt)
    (A : Analyzer) (hA : A.flagOd = false) :
    (W.dn ≠ 0 → W.finished ≠ [] →
      (A.basicAnalysis W).totalTravelTime = W.dn * (W.finished.map W.V.travelTime).sum ∧
      (A.basicAnalysis W).averageTravelTime = (W.finished.map W.V.travelTime).sum / W.finished.length) ∧
    (W.finished = [] → (A.basicAnalysis W).totalTravelTime = -1 ∧
      (A.basicAnalysis W).averageTravelTime = -1) := by
  have h2 := (basic_sums W).2.1
  have h3 := (basic_sums W).2.2.1
  rw [finished_eq h hfl hdt] at h2 h3
  simp only [Analyzer.basicAnalysis, Analyzer.odAnalysis, hA, Bool.false_eq_true, if_false]
  rw [h2, h3]
  refine ⟨fun hdn hne => ?_, fun he => ?_⟩
  · have hl : W.finished.length ≠ 0 := by rwa [Ne, List.length_eq_zero_iff]
    have : W.dn * W.finished.length ≠ 0 := Nat.mul_ne_zero hdn hl
    rw [if_pos this, if_pos this]
    refine ⟨rfl, ?_⟩
    have a : (W.dn : ℚ) ≠ 0 := by exact_mod_cast hdn
    have b : (W.finished.length : ℚ) ≠ 0 := by exact_mod_cast hl
    push_cast
    field_simp
  · rw [he]; simp

/-- C36 for distances: the reported total is the sum over the vehicles whose origin-destination pair
has at least one finished trip. Missing: the distances of all other vehicles, see `C36_distance_false`. -/
theorem C36_distance_partial {W : World} (h : Reachable Any W) (hfl : FlOK W.cfg.fl) (hdt : 0 ≤ W.dt)
    (A : Analyzer) (hA : A.flagOd = false) :
    (A.basicAnalysis W).totalDistance =
      W.dn * ((W.withDest.filter fun v => decide (W.PairDone v)).map W.V.dist).sum ∧
    ((∀ v ∈ W.withDest, W.PairDone v) →
      (A.basicAnalysis W).totalDistance = W.dn * (W.withDest.map W.V.dist).sum) := by
  have key : (A.basicAnalysis W).totalDistance =
      W.dn * ((W.withDest.filter fun v => decide (W.PairDone v)).map W.V.dist).sum := by
    simp only [Analyzer.basicAnalysis, Analyzer.odAnalysis, hA, Bool.false_eq_true, if_false]
    rw [(basic_sums W).2.2.2]
    congr 3
    rw [← withDest_eq, List.filter_filter]
    refine List.filter_congr fun v _ => ?_
    rw [Bool.eq_iff_iff]
    simp only [Bool.and_eq_true, decide_eq_true_eq]
    have hmem : ∀ u, u ∈ W.finished ↔ u ∈ List.range W.nVeh ∧ (W.odDone u).isSome = true := by
      intro u; rw [← finished_eq h hfl hdt, List.mem_filter]
    constructor
    · rintro ⟨u, hu, h1, h2⟩
      refine ⟨⟨u, (hmem u).2 ⟨hu, h1⟩, ?_⟩, by rw [← h2]; exact h1⟩
      obtain ⟨k, hk⟩ := Option.isSome_iff_exists.1 h1
      have e1 := odDone_of hk
      rw [hk] at h2
      unfold odOf at e1 h2
      cases hdu : W.V.dest u with
      | none => rw [hdu] at e1; cases e1
      | some a =>
        cases hdv : W.V.dest v with
        | none => rw [hdv] at h2; cases h2
        | some b =>
          rw [hdu] at e1; rw [hdv] at h2
          simp only [Option.map_some, Option.some.injEq] at e1 h2
          rw [← e1] at h2
          exact ⟨congrArg Prod.fst h2, congrArg some (congrArg Prod.snd h2)⟩
    · rintro ⟨⟨u, hu, h1, h2⟩, h3⟩
      obtain ⟨h4, h5⟩ := (hmem u).1 hu
      refine ⟨u, h4, h5, ?_⟩
      obtain ⟨k, hk⟩ := Option.isSome_iff_exists.1 h5
      rw [hk, ← odDone_of hk]
      unfold odOf; rw [h1, h2]
  refine ⟨key, fun hall => ?_⟩
  rw [key, List.filter_eq_self.2]
  simpa using hall

/-- Two vehicles, the first one on a short trip, the second one further. -/
def statsDemo (k : ℕ) : List Cmd :=
  [.node { name := "a" }, .node { name := "b" }, .node { name := "c" },
   .link { startN := .obj 0, endN := .obj 1, length := 200 },
   .link { startN := .obj 1, endN := .obj 2, length := 500 },
   .veh { orig := .obj 0, dest := some (.obj 1), dep := .step 0 },
   .veh { orig := .obj 0, dest := some (.obj 2), dep := .step 0 },
   .fin (some 40)] ++ List.replicate k .tick

theorem flOK_id : FlOK id := ⟨fun _ _ h => h, rfl, fun _ => rfl⟩

set_option maxRecDepth 100000 in
/-- The C36 theorems are not vacuous: a reachable world, at the end of the simulation, with a finished
and an unfinished vehicle; the reported values are those of the theorems. -/
example : ∃ W, Reachable Any W ∧ FlOK W.cfg.fl ∧ 0 ≤ W.dt ∧ W.T = W.tsize ∧ W.dn = 5 ∧
    W.withDest = [0, 1] ∧ W.finished = [0] ∧ (Analyzer.new.basicAnalysis W).tripAll = 10 ∧
    (Analyzer.new.basicAnalysis W).tripCompleted = 5 ∧
    (Analyzer.new.basicAnalysis W).totalTravelTime = 5 * W.V.travelTime 0 := by
  have hd : obs (runCmds demoCfg (fun _ => 0) (statsDemo 8)) (fun W =>
      decide (0 ≤ W.dt) && decide (W.T = W.tsize) && decide (W.dn = 5) && decide (W.withDest = [0, 1]) &&
      decide (W.finished = [0]) && decide ((Analyzer.new.basicAnalysis W).tripAll = 10) &&
      decide ((Analyzer.new.basicAnalysis W).tripCompleted = 5) &&
      decide ((Analyzer.new.basicAnalysis W).totalTravelTime = 5 * W.V.travelTime 0)) = true := by
    decide +kernel
  obtain ⟨W, hW, hp⟩ := obs_ok hd
  simp only [Bool.and_eq_true, decide_eq_true_eq] at hp
  obtain ⟨⟨⟨⟨⟨⟨⟨h1, h2⟩, h3⟩, h4⟩, h5⟩, h6⟩, h7⟩, h8⟩ := hp
  exact ⟨W, runCmds_reachable hW, by rw [runCmds_cfg hW]; exact flOK_id, h1, h2, h3, h4, h5, h6, h7, h8⟩

set_option maxRecDepth 100000 in
/-- C36 is false of the code for distances: the distance of the second vehicle, whose
origin-destination pair has no finished trip, is missing from the total. -/
theorem C36_distance_false : ∃ W, Reachable Any W ∧ W.cfg.fl = id ∧ W.T = W.tsize ∧
    (Analyzer.new.basicAnalysis W).totalDistance < W.dn * (W.withDest.map W.V.dist).sum := by
  have hd : obs (runCmds demoCfg (fun _ => 0) (statsDemo 8)) (fun W => decide (W.T = W.tsize) &&
      decide ((Analyzer.new.basicAnalysis W).totalDistance < W.dn * (W.withDest.map W.V.dist).sum)) = true := by
    decide +kernel
  obtain ⟨W, hW, hp⟩ := obs_ok hd
  simp only [Bool.and_eq_true, decide_eq_true_eq] at hp
  exact ⟨W, runCmds_reachable hW, by rw [runCmds_cfg hW]; rfl, hp.1, hp.2⟩

/-! ## C37 -/

theorem Calls.trans_api {W0 W : World} {A0 A : Analyzer} {W' : World} (h0 : Calls W0 A0 W A)
    (h : ReflTransGen ApiStep W W')
    (hr : Reachable Any W) (hf : W.finalized = true) : Calls W0 A0 W' A ∧ W'.finalized = true := by
  have : Calls W0 A0 W' A ∧ W'.finalized = true ∧ Reachable Any W' := by
    induction h with
    | refl => exact ⟨h0, hf, hr⟩
    | @tail X Y _ hs ih =>
      obtain ⟨h1, h2, h3⟩ := ih
      have hfY : Y.finalized = true := by
        rcases hs.kinds with ⟨hf, a, ph, t, soff, hn, rfl⟩ | ⟨hf, a, ha⟩ | ⟨a, ha⟩ | ⟨hf, tm, rfl⟩ |
          ⟨hf, hT, ht⟩ | hs | hs
        · rw [h2] at hf; cases hf
        · rw [h2] at hf; cases hf
        · obtain ⟨o, d, dep, pref, cache, lp, la, nm, -, -, -, -, -, -, -, -, rfl⟩ := addVehicle_ok ha
          exact h2
        · rw [h2] at hf; cases hf
        · exact (tick_frame h3.inv hf ht).2.2.1
        · rw [hs.static.finalized, h2]
        · obtain ⟨_, _, _, _, _, _, _, _, _, _, _, _, _, _, _, _, _, _, _, rfl, _⟩ := hs
          exact h2
      exact ⟨.api h1 hs (hfY.trans h2.symm), hfY, .next h3 hs trivial⟩
  exact ⟨this.1, this.2.1⟩

/-- `basic_analysis` depends on the analyzer only through the OD table. -/
theorem basic_of_rows {A B : Analyzer} {W W' : World} (hA : (A.odAnalysis W).rows = (B.odAnalysis W').rows)
    (hfA : (A.odAnalysis W).flagOd = (B.odAnalysis W').flagOd) :
    A.basicAnalysis W = B.basicAnalysis W' := by
  unfold Analyzer.basicAnalysis
  simp only [hA, hfA]

theorem odAnalysis_flag (A : Analyzer) (W : World) : (A.odAnalysis W).flagOd = true := by
  unfold Analyzer.odAnalysis
  split
  · assumption
  · rfl

/-- C37 as far as it holds: whatever was requested on the way, the statistics obtained at the end are
those of the world at the time of the first request (and of the final world if there was none before).
Missing: they are not refreshed when the world changed since, see `C37_false`. -/
theorem C37_first_partial {W W' : World} {A' : Analyzer} (h : Calls W Analyzer.new W' A') :
    ∃ W1, ReflTransGen ApiStep W W1 ∧ ReflTransGen ApiStep W1 W' ∧
      A'.basicAnalysis W' = Analyzer.new.basicAnalysis W1 := by
  have key : ReflTransGen ApiStep W W' ∧ ((A'.flagOd = false) ∨
        ∃ W1, ReflTransGen ApiStep W W1 ∧ ReflTransGen ApiStep W1 W' ∧ A'.flagOd = true ∧ A'.rows = W1.odRows) := by
    induction h with
    | refl => exact ⟨.refl, .inl rfl⟩
    | api _ hs _ ih =>
      obtain ⟨h1, h2⟩ := ih
      refine ⟨h1.tail hs, ?_⟩
      rcases h2 with h2 | ⟨W1, a, b, c, d⟩
      · exact .inl h2
      · exact .inr ⟨W1, a, b.tail hs, c, d⟩
    | @od W1 A1 _ ih =>
      obtain ⟨h1, h2⟩ := ih
      refine ⟨h1, .inr ?_⟩
      unfold Analyzer.odAnalysis
      rcases h2 with h2 | ⟨W2, a, b, c, d⟩
      · rw [h2]; exact ⟨W1, h1, .refl, rfl, rfl⟩
      · rw [c]; exact ⟨W2, a, b, c, d⟩
    | @basic W1 A1 _ ih =>
      obtain ⟨h1, h2⟩ := ih
      refine ⟨h1, .inr ?_⟩
      unfold Analyzer.basicAnalysis Analyzer.odAnalysis
      rcases h2 with h2 | ⟨W2, a, b, c, d⟩
      · rw [h2]; exact ⟨W1, h1, .refl, rfl, rfl⟩
      · rw [c]; exact ⟨W2, a, b, c, d⟩
  obtain ⟨h1, h2⟩ := key
  rcases h2 with h2 | ⟨W1, a, b, c, d⟩
  · refine ⟨W', h1, .refl, basic_of_rows ?_ ?_⟩
    · simp [Analyzer.odAnalysis, h2, Analyzer.new]
    · rw [odAnalysis_flag, odAnalysis_flag]
  · refine ⟨W1, a, b, basic_of_rows ?_ ?_⟩
    · simp [Analyzer.odAnalysis, c, d, Analyzer.new]
    · rw [odAnalysis_flag, odAnalysis_flag]

/-- C37 as far as it holds: requests made while the trip records were already final are harmless. -/
theorem C37_settled_partial {W W' : World} {A' : Analyzer} (h : Calls W Analyzer.new W' A')
    (hset : ∀ W1, ReflTransGen ApiStep W W1 → ReflTransGen ApiStep W1 W' →
      W1.nVeh = W'.nVeh ∧ W1.cfg = W'.cfg ∧ W1.V.orig = W'.V.orig ∧ W1.V.dest = W'.V.dest ∧
        W1.V.travelTime = W'.V.travelTime ∧ W1.V.dist = W'.V.dist) :
    A'.basicAnalysis W' = Analyzer.new.basicAnalysis W' := by
  obtain ⟨W1, a, b, c⟩ := C37_first_partial h
  rw [c]
  obtain ⟨e1, e2, e3, e4, e5, e6⟩ := hset W1 a b
  have : W1.odRows = W'.odRows := by
    have : W1.odCollect = W'.odCollect := by
      funext S v
      unfold odCollect World.dn
      rw [e2, e3, e4, e5, e6]
    unfold odRows odStats
    rw [this, e1]
  exact basic_of_rows (by simp [Analyzer.odAnalysis, Analyzer.new, this])
    (by rw [odAnalysis_flag, odAnalysis_flag])

set_option maxRecDepth 100000 in
/-- C37 is false of the code: two histories with the same simulation, one of which asks for the OD
table before the first step. At the end of the simulation the one reports 5 completed trips, the
other 0. -/
theorem C37_false : ∃ W W' A1 A2, Reachable Any W ∧ W'.T = W'.tsize ∧
    Calls W Analyzer.new W' A1 ∧ Calls W Analyzer.new W' A2 ∧
    (A1.basicAnalysis W').tripCompleted = 5 ∧ (A2.basicAnalysis W').tripCompleted = 0 := by
  have hd : obs (runCmds demoCfg (fun _ => 0) (statsDemo 8)) (fun W' => decide (W'.T = W'.tsize) &&
      decide ((Analyzer.new.basicAnalysis W').tripCompleted = 5)) = true := by decide +kernel
  obtain ⟨W', hW', hp⟩ := obs_ok hd
  simp only [Bool.and_eq_true, decide_eq_true_eq] at hp
  have h0 : obs (runCmds demoCfg (fun _ => 0) (statsDemo 0)) (fun W => W.finalized &&
      decide ((Analyzer.new.basicAnalysis W).tripCompleted = 0)) = true := by decide +kernel
  obtain ⟨W0, hW0, hp0⟩ := obs_ok h0
  simp only [Bool.and_eq_true, decide_eq_true_eq] at hp0
  obtain ⟨W, h1, hpath⟩ := runCmds_path (statsDemo 0) (List.replicate 8 .tick) hW'
  have : W = W0 := by rw [hW0] at h1; cases h1; rfl
  subst this
  have hr := runCmds_reachable hW0
  refine ⟨W, W', Analyzer.new, Analyzer.new.odAnalysis W, hr, hp.1, (Calls.trans_api .refl hpath hr hp0.1).1,
    (Calls.trans_api (.od .refl) hpath hr hp0.1).1, hp.2, ?_⟩
  · rw [show (Analyzer.new.odAnalysis W).basicAnalysis W' = Analyzer.new.basicAnalysis W from
      basic_of_rows (by simp [Analyzer.odAnalysis, Analyzer.new]) (by rw [odAnalysis_flag, odAnalysis_flag])]
    exact hp0.2

end UX
