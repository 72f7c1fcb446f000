import Verif.Proofs.CppKinStay

/-!
# Positions and spacing: time steps
-/

namespace UX.Cpp
open CWorld Relation Spec

theorem max_if (a b : ℚ) : (if a < b then b else a) = max b a := by
  split
  · rename_i h; exact (max_eq_left h.le).symm
  · rename_i h; exact (max_eq_right (not_lt.1 h)).symm

theorem min_if (a b : ℚ) : (if a < b then a else b) = min b a := by
  split
  · rename_i h; exact (min_eq_right h.le).symm
  · rename_i h; exact (min_eq_left (not_lt.1 h)).symm

/-- The code of `car_follow_newell` computes Newell's law. -/
theorem aim_eq (W : CWorld) (v l : ℕ) :
    W.aim v l = newell W l (W.veh v).x ((W.veh v).leader.map (fun u => (W.veh u).x)) := by
  have hg : jamGap W l = W.gap l := rfl
  have hf : W.followPos v l = max (W.veh v).x
      (match (W.veh v).leader.map (fun u => (W.veh u).x) with
      | none => W.g.fl ((W.veh v).x + W.g.fl ((W.link l).vmax * W.g.deltaT))
      | some y => min (W.g.fl ((W.veh v).x + W.g.fl ((W.link l).vmax * W.g.deltaT)))
        (W.g.fl (y - jamGap W l))) := by
    unfold followPos
    cases h : (W.veh v).leader with
    | none => simp only [Option.map_none]; exact max_if _ _
    | some u =>
      simp only [Option.map_some, hg]
      rw [max_if, max_if, min_if, max_min_distrib_left, max_min_distrib_left, ← max_assoc, max_self]
  have h1 : W.aim v l = min (W.link l).len (W.followPos v l) := by
    unfold CWorld.aim
    split
    · rename_i h; exact (min_eq_left h.le).symm
    · rename_i h; exact (min_eq_right (not_lt.1 h)).symm
  rw [h1, hf]; rfl

theorem newell_congr {W W' : CWorld} (s : SamePar W W') (hg : W'.g = W.g) (l : ℕ) (x : ℚ) (y : Option ℚ) :
    newell W' l x y = newell W l x y := by
  unfold newell jamGap
  rw [s.len, s.vmax, s.dlane, hg]

theorem KL.par {W W' : CWorld} {l k : ℕ} (s : SamePar W W') (hf : W'.g.fl = W.g.fl)
    (hn : W'.g.deltaN = W.g.deltaN) (q : Quiet W W') (h : KL W l k) : KL W' l k := by
  unfold KL CWorld.gap
  rw [hf, hn, s.dlane, s.len, s.lanes, q.1]
  exact KQ.congr h (fun v _ => (q.2 v).1) (fun v _ => (q.2 v).2.1)

theorem KPar.par {W W' : CWorld} (p : KPar W) (s : SamePar W W') (hf : W'.g.fl = W.g.fl)
    (hn : W'.g.deltaN = W.g.deltaN) (hl : W'.g.nLinks = W.g.nLinks) : KPar W' := by
  refine ⟨by rw [hf]; exact p.fl, fun l h => ?_, fun l h => ?_⟩
  · rw [s.len]; exact p.len l (by rw [← hl]; exact h)
  · unfold CWorld.gap; rw [hf, hn, s.dlane]; exact p.gap l (by rw [← hl]; exact h)

theorem Quiet.trans {W W' W'' : CWorld} (a : Quiet W W') (b : Quiet W' W'') : Quiet W W'' :=
  ⟨fun l => (b.1 l).trans (a.1 l), fun w => ⟨(b.2 w).1.trans (a.2 w).1, (b.2 w).2.1.trans (a.2 w).2.1,
    (b.2 w).2.2.trans (a.2 w).2.2⟩⟩

theorem homeVeh_quiet {W : CWorld} {v : ℕ} (hst : (W.veh v).state = .home) : Quiet W (W.vehUpdate v none) := by
  have h1 : ((W.logData v none).veh v).state = .home := by
    rw [core_state (core_logData W v none)]; exact hst
  have q1 := (Still.log W v none).quiet
  unfold vehUpdate
  simp only [h1]
  split
  · refine q1.trans ?_
    exact Quiet.setV (W.logData v none) v (fun V => { V with state := .wait }) (fun V => ⟨rfl, rfl, rfl⟩)
  · exact q1

theorem homePass_quiet (xs : List ℕ) (hnd : xs.Nodup) {W : CWorld} (r : Rest W)
    (hx : ∀ v ∈ xs, v < W.g.nVehs ∧ (W.veh v).state = .home) :
    Quiet W (xs.foldl (fun W v => W.vehUpdate v none) W) := by
  induction xs generalizing W with
  | nil => exact Quiet.refl W
  | cons v t ih =>
    obtain ⟨hv, ht⟩ := List.nodup_cons.1 hnd
    obtain ⟨p, q, g, e⟩ := r.homeVeh (hx v (by simp)).1 (hx v (by simp)).2
    exact (homeVeh_quiet (hx v (by simp)).2).trans (ih ht p (fun w hw => by
      rw [g, e w (fun h => hv (h ▸ hw))]; exact hx w (by simp [hw])))

theorem endStep_quiet (W : CWorld) : Quiet W W.reconcile.routeStep := by
  obtain ⟨_, hv, _, _, _, _, _, hn, _⟩ := routeStep_same W.reconcile
  refine ⟨fun l => ?_, fun w => ?_⟩
  · obtain ⟨r, e⟩ := routeStep_link W.reconcile l
    rw [e, reconcile_link]
  · rw [hv]; exact ⟨rfl, rfl, rfl⟩

theorem firstExc_none {W : CWorld} (h : W.firstExc = none) (l : ℕ) (hl : l < W.g.nLinks) :
    (W.link l).exc = none := by
  unfold CWorld.firstExc at h
  split at h
  · simp at h
  · exact (List.findSome?_eq_none_iff.1 h) l (List.mem_range.2 hl)

theorem Acts.genKL {W W' : CWorld} (a : Acts .gen W W') (p : KPar W) {m : ℕ} (hm : KL W m 0) : KL W' m 0 := by
  induction a with
  | refl => exact hm
  | tail b c ih => exact c.genKL (p.keep (Acts.keep b)) (Acts.keep (.single c)) ih

theorem Acts.waitQuiet {W W' : CWorld} (a : Acts .wait W W') : Quiet W W' := by
  induction a with
  | refl => exact Quiet.refl W
  | tail b c ih =>
    refine ih.trans ?_
    cases c with
    | waitLog _ n v i hv => exact (Still.log _ v none).quiet

/-- The parallel region, if no exception was thrown. -/
theorem region_kin {W : CWorld} (r : Rest W) (σ : Sched) (hσ : σ.Valid W) (p : KPar W)
    (h : KAll W (fun _ => 0)) (hex : ∀ l, l < W.g.nLinks → ((region σ W).link l).exc = none) :
    KAll (region σ W) (fun _ => 0) ∧ ∀ l v, v ∈ ((region σ W).link l).vehs →
      ((region σ W).veh v).count = (W.veh v).count →
      v ∈ (W.link l).vehs ∧
        (((region σ W).veh v).x = newell W l (W.veh v).x ((W.veh v).leader.map (fun u => (W.veh u).x)) ∨
          ((region σ W).veh v).x = newell W l (W.veh v).x none ∧ ∃ u, (W.veh v).leader = some u ∧
            ∀ m, u ∈ ((region σ W).link m).vehs → ((region σ W).veh u).count ≠ (W.veh u).count) := by
  have hrun : σ.run.Nodup := hσ.2.2.2.1.nodup_iff.2 List.nodup_range
  unfold CWorld.region at hex ⊢
  obtain ⟨r1, k1⟩ := Rest.foldl (fun W l r => Rest.linkUpdate r l) σ.update r
  obtain ⟨_, u2, u3, u4⟩ := linkUpdates_par σ.update W
  obtain ⟨_, f2⟩ := linkUpdates_flow σ.update W
  have q1 : Quiet W (σ.update.foldl CWorld.linkUpdate W) :=
    ⟨fun l => (f2 l).1, fun w => by rw [u4]; exact ⟨rfl, rfl, rfl⟩⟩
  have st1 : Stay W (σ.update.foldl CWorld.linkUpdate W) :=
    Stay.same (fun l => (f2 l).1) (fun w => by rw [u4]; exact ⟨rfl, rfl, rfl⟩)
  simp only at hex ⊢
  generalize σ.update.foldl CWorld.linkUpdate W = W1 at *
  have h1 : KAll W1 (fun _ => 0) := h.quiet k1 q1
  have p1 := p.keep k1
  obtain ⟨r2, k2⟩ := Rest.foldl (fun W n r => Rest.nodeStage r n) σ.gen r1
  have s2 : Acts .gen W1 (σ.gen.foldl CWorld.nodeStage W1) :=
    foldl_acts (fun W n r => Rest.nodeStage r n) (fun W n r => nodeStage_acts r n) σ.gen r1
  generalize σ.gen.foldl CWorld.nodeStage W1 = W2 at *
  have h2 : KAll W2 (fun _ => 0) := fun m hm => Acts.genKL s2 p1 (h1 m (by rw [← k2.g]; exact hm))
  have p2 := p1.keep k2
  obtain ⟨r3, k3, c3⟩ := transferAll r2
  have s3 := transferAll_acts (List.range W2.g.nNodes) r2
  obtain ⟨κ, h3⟩ := transferAll_kl (List.range W2.g.nNodes) List.nodup_range r2 p2 h2 (fun _ _ _ => rfl)
  generalize (List.range W2.g.nNodes).foldl CWorld.transfer W2 = W3 at *
  have p3 := p2.keep k3
  have st3 : Stay W W3 := st1.trans ((Acts.stay (Or.inl rfl) s2).trans (Acts.stay (Or.inr rfl) s3))
  have k13 := (k1.trans k2).trans k3
  obtain ⟨r4, k4⟩ := Rest.foldl (fun W l r => Rest.followPass r l) σ.follow r3
  have hc4 : (σ.follow.foldl CWorld.followPass W3).core = W3.core :=
    core_foldl _ (fun W l => core_followPass W l) σ.follow W3
  have c4 : ∀ l, Clear (σ.follow.foldl CWorld.followPass W3) l := fun l => by
    unfold Clear; rw [core_arrived hc4]; exact c3 l
  have hls : ∀ l, l < W3.g.nLinks → l ∈ σ.follow := fun l hl =>
    hσ.2.2.1.mem_iff.2 (List.mem_range.2 (by rw [← k13.g]; exact hl))
  have rl4 : ∀ l, l < W3.g.nLinks → RL (σ.follow.foldl CWorld.followPass W3) l := follow_rl r3 h3 hls
  obtain ⟨pl, hn⟩ := followPasses σ.follow (Placed.refl W3)
  have p4 := p3.keep k4
  generalize σ.follow.foldl CWorld.followPass W3 = W4 at *
  have k14 := k13.trans k4
  have ri : RunInv W4 W4 (fun _ => False) :=
    ⟨fun l hl => rl4 l (by rw [← k4.g]; exact hl), fun _ _ hw => ⟨hw, rfl, rfl⟩, fun _ hw => hw.elim⟩
  obtain ⟨r5, k5⟩ := runAll σ.run hrun r4 (fun l _ => c4 l)
  have s5 := runAll_acts σ.run hrun r4 (fun l _ => c4 l)
  have s6 : Acts .wait (σ.run.foldl CWorld.runPass W4) (σ.wait.foldl CWorld.waitPass (σ.run.foldl CWorld.runPass W4)) :=
    foldl_acts (fun W n r => Rest.waitPass r n) (fun W n r => waitPass_acts r n) σ.wait r5
  have hrl : ∀ l ∈ σ.run, l < W.g.nLinks := fun l hl => List.mem_range.1 (hσ.2.2.2.1.mem_iff.1 hl)
  have ri5 := runAll_inv σ.run hrun r4 (fun l _ => c4 l) p4.fl ri
    (fun l hl => Acts.exc (Or.inr rfl) s6 l (hex l (hrl l hl)))
  generalize σ.run.foldl CWorld.runPass W4 = W5 at *
  have k15 := k14.trans k5
  have q6 := Acts.waitQuiet s6
  have k6 := Acts.keep s6
  generalize σ.wait.foldl CWorld.waitPass W5 = W6 at *
  have hall : ∀ l w, w ∈ (W5.link l).vehs → (W5.veh w).xOld ≤ (W5.veh w).x ∧ (W5.veh w).x = (W5.veh w).xNext :=
    fun l w hw => ri5.done w (Or.inr ⟨l, hσ.2.2.2.1.mem_iff.2 (List.mem_range.2 (by
      rw [← k15.g]; exact (r5.inv.mem l w hw).2.2.1)), hw⟩) l hw
  constructor
  · have h5 : KAll W5 (fun _ => 0) := fun l hl => by
      have a := ri5.rl l hl
      refine ⟨fun v hv => ?_, fun i u v hu hv => ?_, (W5.link l).vehs, [], by simp, by simp,
        fun v hv => Or.inl (hall l v hv).1⟩
      · obtain ⟨b1, b2, b3⟩ := a.pos v hv
        exact ⟨b1, b2.trans b3⟩
      · have b := a.sp i u v hu hv
        have := (hall l v (List.mem_of_getElem? hv)).2
        simp only [this]; exact b
    exact h5.quiet k6 q6
  · intro l v hv hcv
    rw [q6.1] at hv
    rw [(q6.2 v).2.2] at hcv
    rw [(q6.2 v).1, (hall l v hv).2]
    obtain ⟨m4, x4, n4⟩ := ri5.nxt l v hv
    rw [x4]
    rw [pl.link] at m4
    have hc3 : (W3.veh v).count = (W.veh v).count := by rw [← (pl.veh v).2.2.2, ← n4]; exact hcv
    obtain ⟨m0, x0, ld⟩ := st3.stay l v m4 hc3
    refine ⟨m0, ?_⟩
    have hlt : l < W3.g.nLinks := (r3.inv.mem l v m4).2.2.1
    rw [hn v l (r3.inv.mem l v m4).1 (Or.inl ⟨l, hls l hlt, m4⟩), aim_eq,
      newell_congr k13.samePar k13.g, x0]
    rcases ld with ⟨e, hu⟩ | ⟨e, u, hu, hcu⟩
    · left
      rw [e]
      cases hle : (W.veh v).leader with
      | none => rfl
      | some u =>
        simp only [Option.map_some]
        have hum : u ∈ (W3.link l).vehs := r3.inv.leader_mem m4 (by rw [e]; exact hle)
        rw [(st3.stay l u hum (hu u hle)).2.1]
    · right
      rw [e]
      refine ⟨rfl, u, hu, fun m hm hc => ?_⟩
      rw [q6.1] at hm
      rw [(q6.2 u).2.2] at hc
      obtain ⟨a, _, b⟩ := ri5.nxt m u hm
      rw [pl.link] at a
      exact hcu m a (by rw [← (pl.veh u).2.2.2, ← b]; exact hc)

/-- A completed time step. -/
theorem step_kin {W : CWorld} (r : Rest W) {σ : Sched} (hσ : σ.Valid W) {home : List ℕ}
    (hnd : home.Nodup) (hh : ∀ v ∈ home, v < W.g.nVehs ∧ (W.veh v).state = .home) {W' : CWorld}
    (he : CWorld.stepWith σ home W = (W', none)) (p : KPar W) (h : KAll W (fun _ => 0)) :
    KPar W' ∧ KAll W' (fun _ => 0) ∧ ∀ l v, StaysOn W W' v l → Follows W W' v l := by
  have hrun : σ.run.Nodup := hσ.2.2.2.1.nodup_iff.2 List.nodup_range
  have r0 : Rest W.clearExc := r.congr (core_clearExc W).symm
  obtain ⟨k2, _⟩ := r.stepWith2 σ hrun home hnd hh
  obtain ⟨_, k3⟩ := r.stepWith σ hrun home hnd hh
  rw [he] at k2 k3
  obtain ⟨r1, k1⟩ := r0.region σ hrun
  have kk := (Keep.clearExc W).trans k1
  have reg := region_kin r0 σ hσ (p.keep (Keep.clearExc W))
    (h.quiet (Keep.clearExc W) ⟨fun _ => rfl, fun _ => ⟨rfl, rfl, rfl⟩⟩)
  unfold CWorld.stepWith at he
  simp only at he
  generalize hW6 : CWorld.region σ W.clearExc = W6 at *
  split at he
  · simp at he
  rename_i hex
  obtain ⟨g1, g2⟩ := reg (fun l hl => firstExc_none hex l (by rw [kk.g]; exact hl))
  have hx : ∀ v ∈ home, v < W6.g.nVehs ∧ (W6.veh v).state = .home := fun v hv => by
    rw [kk.g, kk.home v (hh v hv).2]; exact hh v hv
  have q7 := homePass_quiet home hnd r1 hx
  obtain rfl := congrArg Prod.fst he
  simp only at k2 k3 ⊢
  generalize home.foldl (fun (W : CWorld) v => W.vehUpdate v none) W6 = W7 at *
  have q8 := q7.trans (endStep_quiet W7)
  generalize W7.reconcile.routeStep = W8 at *
  have sp : SamePar W6 W8 := by
    have a := kk.samePar
    have b := k3.par
    exact ⟨fun m => (b.node m).trans (a.node m).symm, fun m => (b.link m).trans (a.link m).symm,
      fun m => (b.veh m).trans (a.veh m).symm⟩
  have hfl : W8.g.fl = W.g.fl := CGlob.fix_fl k2.fix
  have hdn : W8.g.deltaN = W.g.deltaN := CGlob.fix_deltaN k2.fix
  refine ⟨p.par k3.par hfl hdn k3.nLinks, fun m hm => ?_, fun l v hv i hi => ?_⟩
  · exact (g1 m (by rw [kk.g, ← k3.nLinks]; exact hm)).par sp (by rw [hfl, kk.g]) (by rw [hdn, kk.g]) q8
  · obtain ⟨hv0, hv8, hc⟩ := hv
    rw [q8.1] at hv8
    rw [(q8.2 v).2.2] at hc
    obtain ⟨_, g⟩ := g2 l v hv8 hc
    have hl := (r.inv.mem l v hv0).2.2.1
    have hld := (r.inv.linked l hl i v hi).1
    simp only at hld
    rw [(q8.2 v).1]
    refine ⟨fun hlt => ?_, fun u hle hu => ?_⟩
    · rw [if_neg (by omega)] at hld
      rcases g with g | ⟨g, u, hu, _⟩
      · rw [show (W.clearExc.veh v).leader = none from hld] at g
        exact g
      · rw [show (W.clearExc.veh v).leader = none from hld] at hu; simp at hu
    · rw [if_pos hle, hu] at hld
      rcases g with g | ⟨g, u', hu', hc'⟩
      · left
        rw [show (W.clearExc.veh v).leader = some u from hld] at g
        exact g
      · right
        rw [show (W.clearExc.veh v).leader = some u from hld] at hu'
        obtain rfl := Option.some.inj hu'
        refine ⟨g, fun hs => hc' l (by rw [← q8.1]; exact hs.2.1) (by rw [← (q8.2 u).2.2]; exact hs.2.2)⟩

end UX.Cpp
