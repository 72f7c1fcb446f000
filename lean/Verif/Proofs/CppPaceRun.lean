import Verif.Proofs.CppPace
import Verif.Proofs.CppKinReach
import Verif.Proofs.CppFollowReach

/-!
# No vehicle is faster than the free flow: time steps and runs
-/

namespace UX.Cpp
open CWorld Relation Spec

theorem region_pace {W : CWorld} (r : Rest W) (σ : Sched) (hσ : σ.Valid W) (k0 : KPar W)
    (h : KAll W (fun _ => 0)) (hex : ∀ l, l < W.g.nLinks → ((region σ W).link l).exc = none)
    (p : Roads W) {v : ℕ} (hv : v < W.g.nVehs) (hp : Pace W W.now (Req W v) (W.veh v)) :
    Pace (region σ W) (W.now + W.g.deltaT) (Req (region σ W) v) ((region σ W).veh v) := by
  have hrun : σ.run.Nodup := hσ.2.2.2.1.nodup_iff.2 List.nodup_range
  unfold CWorld.region at hex ⊢
  obtain ⟨r1, k1⟩ := Rest.foldl (fun W l r => Rest.linkUpdate r l) σ.update r
  obtain ⟨_, u2, u3, u4⟩ := linkUpdates_par σ.update W
  obtain ⟨_, f2⟩ := linkUpdates_flow σ.update W
  have q1 : Quiet W (σ.update.foldl CWorld.linkUpdate W) :=
    ⟨fun l => (f2 l).1, fun w => by rw [u4]; exact ⟨rfl, rfl, rfl⟩⟩
  have hreq : Req (σ.update.foldl CWorld.linkUpdate W) v → Req W v := by
    have : ∀ (ls : List ℕ) (W : CWorld), Req (ls.foldl CWorld.linkUpdate W) v → Req W v := by
      intro ls
      induction ls with
      | nil => exact fun _ h => h
      | cons l t ih =>
        intro W h
        exact Req.of_eq (W' := W.linkUpdate l) (linkUpdate_arrived W l) (fun _ h => h) (ih _ h)
    exact this _ _
  simp only at hex ⊢
  have hp1 : Pace (σ.update.foldl CWorld.linkUpdate W) (σ.update.foldl CWorld.linkUpdate W).now
      (Req (σ.update.foldl CWorld.linkUpdate W) v) ((σ.update.foldl CWorld.linkUpdate W).veh v) := by
    rw [k1.nowEq, u4]
    exact (hp.over hreq rfl (Or.inl rfl)).keep k1.samePar (by rw [k1.g]) (by rw [k1.g])
  generalize σ.update.foldl CWorld.linkUpdate W = W1 at *
  have h1 : KAll W1 (fun _ => 0) := h.quiet k1 q1
  have p1 := k0.keep k1
  obtain ⟨r2, k2⟩ := Rest.foldl (fun W n r => Rest.nodeStage r n) σ.gen r1
  have s2 : Acts .gen W1 (σ.gen.foldl CWorld.nodeStage W1) :=
    foldl_acts (fun W n r => Rest.nodeStage r n) (fun W n r => nodeStage_acts r n) σ.gen r1
  have hp2 := Acts.early (Or.inl rfl) s2 (p.keep k1) hp1
  generalize σ.gen.foldl CWorld.nodeStage W1 = W2 at *
  have h2 : KAll W2 (fun _ => 0) := fun m hm => Acts.genKL s2 p1 (h1 m (by rw [← k2.g]; exact hm))
  have p2 := p1.keep k2
  obtain ⟨r3, k3, c3⟩ := transferAll r2
  have s3 := transferAll_acts (List.range W2.g.nNodes) r2
  have hp3 := Acts.early (Or.inr rfl) s3 (p.keep (k1.trans k2)) hp2
  obtain ⟨κ, h3⟩ := transferAll_kl (List.range W2.g.nNodes) List.nodup_range r2 p2 h2 (fun _ _ _ => rfl)
  generalize (List.range W2.g.nNodes).foldl CWorld.transfer W2 = W3 at *
  have p3 := p2.keep k3
  have k13 := (k1.trans k2).trans k3
  obtain ⟨r4, k4⟩ := Rest.foldl (fun W l r => Rest.followPass r l) σ.follow r3
  have hc4 : (σ.follow.foldl CWorld.followPass W3).core = W3.core :=
    core_foldl _ (fun W l => core_followPass W l) σ.follow W3
  have c4 : ∀ l, Clear (σ.follow.foldl CWorld.followPass W3) l := fun l => by
    unfold Clear; rw [core_arrived hc4]; exact c3 l
  have hls : ∀ l, l < W3.g.nLinks → l ∈ σ.follow := fun l hl =>
    hσ.2.2.1.mem_iff.2 (List.mem_range.2 (by rw [← k13.g]; exact hl))
  have rl4 : ∀ l, l < W3.g.nLinks → RL (σ.follow.foldl CWorld.followPass W3) l := follow_rl r3 h3 hls
  have am := Aimed.passes σ.follow (Aimed.refl W3)
  have p4 := p3.keep k4
  have hp4 : Race (σ.follow.foldl CWorld.followPass W3) (σ.follow.foldl CWorld.followPass W3).now
      (Req (σ.follow.foldl CWorld.followPass W3) v) ((σ.follow.foldl CWorld.followPass W3).veh v) := by
    have a := hp3.aimed (p.keep k13) am (fun hs => Or.inr (by
      obtain ⟨l, hl⟩ := (r3.inv.run v (by rw [k13.g]; exact hv) hs).resolve_left (by simp)
      exact ⟨l, hls l (r3.inv.mem l v hl).2.2.1, hl⟩))
    have hreq : Req (σ.follow.foldl CWorld.followPass W3) v → Req W3 v :=
      Req.of_eq (fun m => core_arrived hc4 m) (fun n hn => by rw [core_incoming hc4] at hn; exact hn)
    rw [k4.nowEq]
    exact (a.over hreq rfl (Or.inl rfl)).keep k4.samePar (by rw [k4.g]) (by rw [k4.g])
  generalize σ.follow.foldl CWorld.followPass W3 = W4 at *
  have k14 := k13.trans k4
  have ri : RunInv W4 W4 (fun _ => False) :=
    ⟨fun l hl => rl4 l (by rw [← k4.g]; exact hl), fun _ _ hw => ⟨hw, rfl, rfl⟩, fun _ hw => hw.elim⟩
  obtain ⟨r5, k5⟩ := runAll σ.run hrun r4 (fun l _ => c4 l)
  have s5 := runAll_acts σ.run hrun r4 (fun l _ => c4 l)
  have hp5 := Acts.race s5 (p.keep k14) hp4
  have s6 : Acts .wait (σ.run.foldl CWorld.runPass W4) (σ.wait.foldl CWorld.waitPass (σ.run.foldl CWorld.runPass W4)) :=
    foldl_acts (fun W n r => Rest.waitPass r n) (fun W n r => waitPass_acts r n) σ.wait r5
  have hrl : ∀ l ∈ σ.run, l < W.g.nLinks := fun l hl => List.mem_range.1 (hσ.2.2.2.1.mem_iff.1 hl)
  have ri5 := runAll_inv σ.run hrun r4 (fun l _ => c4 l) p4.fl ri
    (fun l hl => Acts.exc (Or.inr rfl) s6 l (hex l (hrl l hl)))
  generalize σ.run.foldl CWorld.runPass W4 = W5 at *
  have k15 := k14.trans k5
  have hall : ∀ l w, w ∈ (W5.link l).vehs → (W5.veh w).xOld ≤ (W5.veh w).x ∧ (W5.veh w).x = (W5.veh w).xNext :=
    fun l w hw => ri5.done w (Or.inr ⟨l, hσ.2.2.2.1.mem_iff.2 (List.mem_range.2 (by
      rw [← k15.g]; exact (r5.inv.mem l w hw).2.2.1)), hw⟩) l hw
  refine Acts.paceWait s6 ?_
  have := hp5.pace (fun hs => by
    obtain ⟨l, hl⟩ := (r5.inv.run v (by rw [k15.g]; exact hv) hs).resolve_left (by simp)
    exact (hall l v hl).2) (by rw [k15.g]; exact p.dt)
  rw [k15.nowEq, k15.g] at this
  exact this

/-- Departures. -/
theorem Pace.home {W : CWorld} {c : ℚ} {w v : ℕ} (hc : W.now + W.g.deltaT ≤ c) (hs : (W.veh v).state = .home)
    (h : Pace W c (Req W w) (W.veh w)) : Pace W c (Req (W.vehUpdate v none) w) ((W.vehUpdate v none).veh w) := by
  have hcr := core_logData W v none
  have hst : ((W.logData v none).veh v).state = .home := by rw [core_state hcr]; exact hs
  have h1 : Pace W c (Req W w) ((W.logData v none).veh w) :=
    h.over id (congrArg CVeh.pace (logData_noLog W v none w) :) (LogCh.logData W v none w)
  have hr : Req (W.logData v none) w → Req W w :=
    Req.of_eq (fun m => core_arrived hcr m) (fun n hn => by rw [core_incoming hcr] at hn; exact hn)
  unfold CWorld.vehUpdate
  simp only [hst]
  split
  · rename_i ht
    have hr' : Req (((W.logData v none).setV v (fun V => { V with state := .wait })).setN
        ((W.logData v none).veh v).orig (fun N => { N with genQ := N.genQ ++ [v] })) w → Req W w :=
      fun q => hr (req_setN (W := (W.logData v none).setV v (fun V => { V with state := .wait }))
        (by intro N hN; exact hN) q)
    by_cases e : w = v
    · subst e
      rw [setN_veh, setV_veh, if_pos rfl]
      refine ⟨fun _ => h1.fresh (Or.inl hst), fun _ => ?_, fun hh => ?_, fun hf l hl => ?_, fun hh => ?_⟩
      · show ((W.logData w none).veh w).depTime + W.g.deltaT ≤ c
        have hn : (W.logData w none).now = W.now := by
          unfold CWorld.now; rw [core_g hcr]
        rw [hn] at ht
        linarith
      · simp at hh
      · have : ((W.logData w none).veh w).link = some l := hl
        rw [(h1.fresh (Or.inl hst)).2.2.2.2] at this; simp at this
      · simp at hh
    · rw [setN_veh, setV_veh, if_neg e]
      exact h1.over hr' rfl (Or.inl rfl)
  · exact h1.over hr rfl (Or.inl rfl)

theorem homePass_pace (xs : List ℕ) (hnd : xs.Nodup) {W : CWorld} (r : Rest W)
    (hx : ∀ v ∈ xs, v < W.g.nVehs ∧ (W.veh v).state = .home) {c : ℚ} {w : ℕ} (hc : W.now + W.g.deltaT ≤ c)
    (h : Pace W c (Req W w) (W.veh w)) :
    Pace (xs.foldl (fun W v => W.vehUpdate v none) W) c (Req (xs.foldl (fun W v => W.vehUpdate v none) W) w)
      ((xs.foldl (fun W v => W.vehUpdate v none) W).veh w) := by
  induction xs generalizing W with
  | nil => exact h
  | cons v t ih =>
    obtain ⟨hv, ht⟩ := List.nodup_cons.1 hnd
    obtain ⟨p, q, g, e⟩ := r.homeVeh (hx v (by simp)).1 (hx v (by simp)).2
    refine ih ht p (fun w hw => by
      rw [g, e w (fun h => hv (h ▸ hw))]; exact hx w (by simp [hw])) ?_ ?_
    · rw [g]; unfold CWorld.now at hc ⊢; rw [g]; exact hc
    · exact (h.home hc (hx v (by simp)).2).keep q (by rw [g]) (by rw [g])

theorem endStep_req {W : CWorld} {w : ℕ} (h : Req W.reconcile.routeStep w) : Req W w := by
  obtain ⟨sp, hv, hn, _, hnl, ht, _, hno, hco⟩ := routeStep_same W.reconcile
  have h1 : Req W.reconcile w := Req.of_eq (fun m => by
    show (W.reconcile.routeStep.link m).core.arrived = (W.reconcile.link m).core.arrived
    rw [hco]) (fun n hn => by rw [hno] at hn; exact hn) h
  refine Req.of_eq (fun m => ?_) (fun n hn => ?_) h1
  · simp only [CWorld.reconcile]; split <;> rfl
  · simp only [CWorld.reconcile] at hn
    split at hn
    · exact hn
    · exact hn

theorem endStep_veh (W : CWorld) : W.reconcile.routeStep.veh = W.veh := by
  obtain ⟨_, hv, _⟩ := routeStep_same W.reconcile
  rw [hv]; rfl

/-- A completed time step. -/
theorem step_pace {W : CWorld} (r : Rest W) {σ : Sched} (hσ : σ.Valid W) {home : List ℕ}
    (hnd : home.Nodup) (hh : ∀ v ∈ home, v < W.g.nVehs ∧ (W.veh v).state = .home) {W' : CWorld}
    (he : CWorld.stepWith σ home W = (W', none)) (k0 : KPar W) (h : KAll W (fun _ => 0)) (p : Roads W)
    {v : ℕ} (hv : v < W.g.nVehs) (hp : Pace W W.now (Req W v) (W.veh v)) :
    Pace W' (W.now + W.g.deltaT) (Req W' v) (W'.veh v) := by
  have hrun : σ.run.Nodup := hσ.2.2.2.1.nodup_iff.2 List.nodup_range
  have r0 : Rest W.clearExc := r.congr (core_clearExc W).symm
  obtain ⟨k2, _⟩ := r.stepWith2 σ hrun home hnd hh
  obtain ⟨_, k3⟩ := r.stepWith σ hrun home hnd hh
  rw [he] at k2 k3
  obtain ⟨r1, k1⟩ := r0.region σ hrun
  have kk := (Keep.clearExc W).trans k1
  have reg := region_pace r0 σ hσ (k0.keep (Keep.clearExc W))
    (h.quiet (Keep.clearExc W) ⟨fun _ => rfl, fun _ => ⟨rfl, rfl, rfl⟩⟩)
  unfold CWorld.stepWith at he
  simp only at he
  generalize hW6 : CWorld.region σ W.clearExc = W6 at *
  split at he
  · simp at he
  rename_i hex
  have g1 := reg (fun l hl => firstExc_none hex l (by rw [kk.g]; exact hl)) (p.keep (Keep.clearExc W)) (v := v) hv
    ((hp.over (Req.of_eq (fun _ => rfl) (fun _ h => h)) rfl (Or.inl rfl)).keep (Keep.clearExc W).samePar rfl rfl)
  have hx : ∀ v ∈ home, v < W6.g.nVehs ∧ (W6.veh v).state = .home := fun v hv => by
    rw [kk.g, kk.home v (hh v hv).2]; exact hh v hv
  have g1' : Pace W6 (W.now + W.g.deltaT) (Req W6 v) (W6.veh v) := g1
  have h7 := homePass_pace home hnd r1 hx (by rw [kk.nowEq, kk.g]) g1'
  obtain rfl := congrArg Prod.fst he
  simp only at k2 k3 ⊢
  have hfix7 : ∀ (xs : List ℕ) (W : CWorld), xs.Nodup → Rest W →
      (∀ v ∈ xs, v < W.g.nVehs ∧ (W.veh v).state = .home) →
      SamePar W (xs.foldl (fun W v => W.vehUpdate v none) W) ∧ (xs.foldl (fun W v => W.vehUpdate v none) W).g = W.g := by
    intro xs
    induction xs with
    | nil => exact fun W _ _ _ => ⟨SamePar.refl W, rfl⟩
    | cons v t ih =>
      intro W hnd r hx
      obtain ⟨hv, ht⟩ := List.nodup_cons.1 hnd
      obtain ⟨p, q, g, e⟩ := r.homeVeh (hx v (by simp)).1 (hx v (by simp)).2
      obtain ⟨a, b⟩ := ih (W.vehUpdate v none) ht p (fun w hw => by
        rw [g, e w (fun h => hv (h ▸ hw))]; exact hx w (by simp [hw]))
      exact ⟨q.trans a, b.trans g⟩
  obtain ⟨sp7, g7⟩ := hfix7 home W6 hnd r1 hx
  generalize home.foldl (fun (W : CWorld) v => W.vehUpdate v none) W6 = W7 at *
  have hr8 : Req W7.reconcile.routeStep v → Req W7 v := endStep_req
  have hv8 := endStep_veh W7
  generalize W7.reconcile.routeStep = W8 at *
  have sp : SamePar W7 W8 := by
    have a := kk.samePar.trans sp7
    have b := k3.par
    exact ⟨fun m => (b.node m).trans (a.node m).symm, fun m => (b.link m).trans (a.link m).symm,
      fun m => (b.veh m).trans (a.veh m).symm⟩
  rw [hv8]
  exact (h7.over hr8 rfl (Or.inl rfl)).keep sp (by rw [g7, kk.g]; exact CGlob.fix_deltaT k2.fix)
    (by rw [g7, kk.g]; exact k3.nLinks)

theorem now_succ {W : CWorld} (p : W.g.fl = id) {W1 : CWorld} (hf : W1.g.fl = W.g.fl) (hd : W1.g.deltaT = W.g.deltaT) :
    ({ W1 with g := { W1.g with timestep := W.g.timestep + 1 } } : CWorld).now = W.now + W.g.deltaT := by
  unfold CWorld.now
  simp only [hf, hd, p, id]
  push_cast; ring

theorem loop_pace {sched : ℕ → CWorld → Sched} (hs : ∀ t V, (sched t V).Valid V)
    {b : ℕ → List ℕ} (hb : ∀ t, (b t).Nodup) (hd : ∀ s t v, s ≠ t → v ∈ b s → v ∉ b t) (k : ℕ)
    {W W' : CWorld} (r : Rest W)
    (hh : ∀ t, W.g.timestep ≤ t → ∀ v ∈ b t, v < W.g.nVehs ∧ (W.veh v).state = .home)
    (hW : CWorld.loopFrom sched b k W = (W', none)) (p : KPar W) (h : KAll W (fun _ => 0)) (ro : Roads W)
    {v : ℕ} (hv : v < W.g.nVehs) (hp : Pace W W.now (Req W v) (W.veh v)) :
    Roads W' ∧ v < W'.g.nVehs ∧ Pace W' W'.now (Req W' v) (W'.veh v) := by
  induction k generalizing W with
  | zero =>
    rw [CWorld.loopFrom] at hW
    obtain rfl := congrArg Prod.fst hW
    exact ⟨ro, hv, hp⟩
  | succ k ih =>
    have hvs := hs W.g.timestep W
    have hns : (sched W.g.timestep W).run.Nodup := hvs.2.2.2.1.nodup_iff.2 List.nodup_range
    obtain ⟨r1, k1⟩ := r.stepWith (sched W.g.timestep W) hns (b W.g.timestep) (hb _) (hh _ le_rfl)
    obtain ⟨k2, _⟩ := r.stepWith2 (sched W.g.timestep W) hns (b W.g.timestep) (hb _) (hh _ le_rfl)
    rw [CWorld.loopFrom] at hW
    cases he : CWorld.stepWith (sched W.g.timestep W) (b W.g.timestep) W with
    | mk W1 e =>
      rw [he] at r1 k1 k2 hW
      simp only at r1 k1 k2 hW
      cases e with
      | some e => simp at hW
      | none =>
        simp only at hW
        obtain ⟨p1, h1, f1⟩ := step_kin r hvs (hb _) (hh _ le_rfl) he p h
        have g1 := step_pace r hvs (hb _) (hh _ le_rfl) he p h ro hv hp
        have hh1 : ∀ t, W.g.timestep + 1 ≤ t → ∀ v ∈ b t, v < W1.g.nVehs ∧ (W1.veh v).state = .home := by
          intro t ht v hv
          obtain ⟨p, q⟩ := hh t (by omega) v hv
          have hv' := k1.home v (fun h => hd _ _ v (by omega) h hv) q
          exact ⟨by rw [k1.nVehs]; exact p, by rw [hv']; exact q⟩
        have hfl : W1.g.fl = W.g.fl := CGlob.fix_fl k2.fix
        have hdt : W1.g.deltaT = W.g.deltaT := CGlob.fix_deltaT k2.fix
        refine ih (W := { W1 with g := { W1.g with timestep := W.g.timestep + 1 } })
          (r1.setG _ rfl rfl rfl rfl rfl) hh1 hW ⟨p1.fl, p1.len, p1.gap⟩ (fun m hm => h1 m hm) ?_ ?_ ?_
        · refine ⟨by rw [← ro.fl]; exact hfl, by show 0 ≤ W1.g.deltaT; rw [hdt]; exact ro.dt, fun l hl => ?_⟩
          have hl' : l < W1.g.nLinks := hl
          rw [k1.nLinks] at hl'
          show 0 < (W1.link l).vmax ∧ 1 / 1000000000 ≤ (W1.link l).len
          rw [k1.par.len, k1.par.vmax]
          exact ro.link l hl'
        · show v < W1.g.nVehs
          rw [k1.nVehs]; exact hv
        · rw [now_succ ro.fl hfl hdt]
          exact Pace.keep (W := W1) (W' := { W1 with g := { W1.g with timestep := W.g.timestep + 1 } })
            ⟨fun _ => rfl, fun _ => rfl, fun _ => rfl⟩ rfl rfl
            (g1.over (Req.of_eq (W' := { W1 with g := { W1.g with timestep := W.g.timestep + 1 } })
              (fun _ => rfl) (fun _ h => h)) rfl (Or.inl rfl))

theorem main_pace {sched : ℕ → CWorld → Sched} (hs : ∀ t V, (sched t V).Valid V) {W W' : CWorld}
    (r : Rest W) {endTs : ℕ} (hr : W.mainLoop sched endTs = (W', none)) (p : KPar W)
    (h : KAll W (fun _ => 0)) (ro : Roads W) {v : ℕ} (hv : v < W.g.nVehs)
    (hp : Pace W W.now (Req W v) (W.veh v)) :
    Roads W' ∧ v < W'.g.nVehs ∧ Pace W' W'.now (Req W' v) (W'.veh v) :=
  loop_pace hs (fun t => bucket_nodup W _ t) (fun s t v hne h h' =>
    hne ((mem_bucket.1 h).2.2.symm.trans (mem_bucket.1 h').2.2)) _ r (fun t _ v hv =>
    ⟨(mem_bucket.1 hv).1, (mem_bucket.1 hv).2.1⟩) hr p h ro hv hp

/-! ## Vehicles that have not departed -/

/-- A vehicle before its departure. -/
def CVeh.Pristine (V : CVeh) : Prop := V.state = .home ∨ V.state = .wait →
  (∀ o ∈ V.log.map CLog.link, o = none) ∧ V.moveRem = 0 ∧ V.flagWait = false ∧ V.link = none

theorem CVeh.Pristine.over {V V' : CVeh} (h : V.Pristine)
    (hk : V'.state = .home ∨ V'.state = .wait → (V.state = .home ∨ V.state = .wait) ∧ V'.moveRem = V.moveRem ∧
      V'.flagWait = V.flagWait ∧ V'.link = V.link) (hl : LogCh V V') : V'.Pristine := by
  intro hs
  obtain ⟨h1, h2, h3, h4⟩ := hk hs
  obtain ⟨a, b, c, d⟩ := h h1
  refine ⟨?_, h2.trans b, h3.trans c, h4.trans d⟩
  rcases hl with e | ⟨e, he, hn⟩
  · rw [e]; exact a
  · have hne : V.state ≠ .run := by rcases h1 with h | h <;> rw [h] <;> simp
    have hn := hn.resolve_right (fun h => hne h.1)
    intro o ho
    rw [he, List.map_append, List.mem_append] at ho
    rcases ho with ho | ho
    · exact a o ho
    · simpa [hn] using ho

/-- What equal vehicles but for the log agree on. -/
theorem noLog_bits {V V' : CVeh} (h : V'.noLog = V.noLog) : V'.state = V.state ∧ V'.moveRem = V.moveRem ∧
    V'.flagWait = V.flagWait ∧ V'.link = V.link := by
  have a := congrArg (fun V : CVeh => V.state) h
  have b := congrArg (fun V : CVeh => V.moveRem) h
  have c := congrArg (fun V : CVeh => V.flagWait) h
  have d := congrArg (fun V : CVeh => V.link) h
  exact ⟨a, b, c, d⟩

theorem VehCh.pristine {W : CWorld} {w : ℕ} {V' : CVeh} (c : VehCh W w V') (hl : LogCh (W.veh w) V')
    (h : (W.veh w).Pristine) : V'.Pristine := by
  refine h.over (fun hs => ?_) hl
  have key : ∀ l, OnRun W w l → V'.state = (W.veh w).state → False := fun l ho e => by
    rw [e, ho.state] at hs; simp at hs
  cases c with
  | same e => subst e; exact ⟨hs, rfl, rfl, rfl⟩
  | ptr l q s ho e => exact (key l ho (by rw [e])).elim
  | nextGen o hw e => subst e; exact ⟨hs, rfl, rfl, rfl⟩
  | nextRun l o ho hd hn e => exact (key l ho (by rw [e])).elim
  | depart l ln ld hw hlt hn ho e => rw [e] at hs; simp at hs
  | move a b ln ld q ha hb hf hn he e => exact (key a ha (by rw [e])).elim
  | ends l q s ho hf e =>
    have e1 : V'.state = if (W.veh w).flagAbort then .abort else .ended := congrArg CVeh.state e
    rw [e1] at hs
    split at hs <;> simp at hs
  | log hw e =>
    obtain ⟨e1, e2, e3, e4⟩ := noLog_bits e
    exact ⟨by rw [← e1]; exact hs, e2, e3, e4⟩
  | follow l p q ho e => exact (key l ho (by rw [e])).elim
  | advance l ho e =>
    refine (key l ho ?_).elim
    rw [e]; unfold CWorld.advance; rw [setV_veh, if_pos rfl]
  | abort l ho hd hn ha e => exact (key l ho (by rw [e])).elim
  | flag l ho hc e hg => exact (key l ho (by rw [e])).elim

theorem CReach.pristine {W : CWorld} (h : CReach W) : ∀ v, (W.veh v).Pristine := by
  refine CReach.invariant (P := fun W => ∀ v, (W.veh v).Pristine) ?_ ?_ ?_ h
  · intro fl tMax deltaN tau duoTime duoWeight noise hardDet gradual noCyclic adjustCap logMode ttInterval v hs
    exact ⟨fun o ho => by simp [CWorld.empty] at ho, rfl, rfl, rfl⟩
  · intro W W' c ih v
    rcases c.veh with ⟨_, hl⟩ | ⟨_, dep, orig, dest, prefer, hv⟩
    · have hl := hl v
      have e1 : (W'.veh v).state = (W.veh v).state := (congrArg CVeh.state hl : (W'.veh v).life.state = (W.veh v).life.state)
      have e2 : (W'.veh v).moveRem = (W.veh v).moveRem :=
        (congrArg CVeh.moveRem hl : (W'.veh v).life.moveRem = (W.veh v).life.moveRem)
      have e3 : (W'.veh v).flagWait = (W.veh v).flagWait :=
        (congrArg CVeh.flagWait hl : (W'.veh v).life.flagWait = (W.veh v).life.flagWait)
      have e4 : (W'.veh v).link = (W.veh v).link := (congrArg CVeh.link hl : (W'.veh v).life.link = (W.veh v).life.link)
      have e6 : (W'.veh v).log = (W.veh v).log := (congrArg CVeh.log hl : (W'.veh v).life.log = (W.veh v).life.log)
      exact (ih v).over (fun hs => ⟨by rw [← e1]; exact hs, e2, e3, e4⟩) (Or.inl e6)
    · rw [hv]
      split
      · exact fun _ => ⟨fun o ho => by simp [newVeh] at ho, rfl, rfl, rfl⟩
      · exact ih v
  · intro W W' e ih v
    have hl := e.logs v
    cases e.veh v with
    | act c => exact c.pristine hl (ih v)
    | stay hw hs e =>
      obtain ⟨e1, e2, e3, e4⟩ := noLog_bits e
      exact (ih v).over (fun hs => ⟨by rw [← e1]; exact hs, e2, e3, e4⟩) hl
    | wake hw hs ht e =>
      obtain ⟨_, e2, e3, e4⟩ := noLog_bits e
      exact (ih v).over (fun _ => ⟨Or.inl hs, e2, e3, e4⟩) hl

/-- A vehicle that is at home. -/
theorem Pace.start {W : CWorld} (h : CReach W) {v : ℕ} (hs : (W.veh v).state = .home) :
    Pace W W.now (Req W v) (W.veh v) := by
  obtain ⟨a, b, c, d⟩ := h.pristine v (Or.inl hs)
  refine ⟨fun _ => ⟨names_nil a _, lastLink_none a, b, c, d⟩, fun h => ?_, fun h => ?_, fun _ l hl => ?_, fun h => ?_⟩
  · rw [hs] at h; simp at h
  · rw [hs] at h; simp at h
  · rw [d] at hl; simp at hl
  · rw [hs] at h; simp at h

theorem Spec.Goes.pace {W W' : CWorld} (g : Goes W W') (h : CReach W) (p : KPar W) (k : KAll W (fun _ => 0)) (ro : Roads W)
    {v : ℕ} (hv : v < W.g.nVehs) (hs : (W.veh v).state = .home) :
    CReach W' ∧ KPar W' ∧ KAll W' (fun _ => 0) ∧ Roads W' ∧ v < W'.g.nVehs ∧ Pace W' W'.now (Req W' v) (W'.veh v) := by
  induction g with
  | none => exact ⟨h, p, k, ro, hv, Pace.start h hs⟩
  | run g sched hsv endTs hr ih =>
    obtain ⟨a, b, c, d, e, f⟩ := ih
    obtain ⟨b', c', _⟩ := main_kin hsv a.rest hr b c
    obtain ⟨d', e', f'⟩ := main_pace hsv a.rest hr b c d e f
    refine ⟨?_, b', c', d', e', f'⟩
    exact a.step (CleanStep.run _ _ endTs sched hsv hr).toStep

end UX.Cpp
