import Verif.Proofs.CppCarry
import Verif.Proofs.CppPaceRun

/-!
# Movement beyond the end of a link: time steps
-/

namespace UX.Cpp
open CWorld Relation Spec

theorem Act.gen_rems {W W' : CWorld} (h : Act .gen W W') : Rems (fun _ => True) W W' := by
  cases h with
  | genErr _ n e v t i hq hc => exact Rems.of_eq rfl
  | signal _ n => exact Rems.of_eq rfl
  | flow _ n => exact Rems.of_eq rfl
  | choose _ n v t o rng i hi hq hc =>
    have key : ∀ w, (((W.setN n (fun N => { N with rng := rng })).setV v (fun V => { V with next := o })).veh w).xOld =
        (W.veh w).xOld ∧ (((W.setN n (fun N => { N with rng := rng })).setV v (fun V => { V with next := o })).veh
          w).moveRem = (W.veh w).moveRem := by
      intro w
      rw [setV_veh]
      split
      · rename_i e; subst e; exact ⟨rfl, rfl⟩
      · exact ⟨rfl, rfl⟩
    exact ⟨fun w => (key w).1, fun w _ => (key w).2⟩
  | depart _ n v l t i hi hq hl hn hc hch hpk =>
    obtain ⟨hvn, hst, hor⟩ := (i.gen n v).1 (by rw [hq]; simp)
    have hnot : ∀ m, v ∉ (W.link m).vehs := fun m hm => by
      have := (i.mem m v hm).2.1; rw [hst] at this; simp at this
    have key : ∀ w, ((W.depart n v l).veh w).xOld = (W.veh w).xOld ∧
        ((W.depart n v l).veh w).moveRem = (W.veh w).moveRem := by
      intro w
      simp only [CWorld.depart, setL_veh]
      rw [attach_veh _ _ _ _ (by simpa using hnot l)]
      simp only [setV_veh, setN_veh]
      split
      · rename_i e; subst e; exact ⟨rfl, rfl⟩
      · exact ⟨rfl, rfl⟩
    exact ⟨fun w => (key w).1, fun w _ => (key w).2⟩

theorem Acts.gen_rems {W W' : CWorld} (h : Acts .gen W W') : Rems (fun _ => True) W W' := by
  induction h with
  | refl => exact Rems.of_eq rfl
  | tail _ h2 ih => exact ih.trans h2.gen_rems (fun _ _ => trivial)

/-- Up to the turn of node `n` the vehicles on a link that ends there, or at a later node, are where they
were. -/
theorem nodeTurn_kept {W : CWorld} (r : Rest W) (σ : Sched) {n a : ℕ} (ha : a < W.g.nLinks)
    (hn : n ≤ (W.link a).dst) :
    ∃ es, ((nodeTurn σ W n).link a).vehs = (W.link a).vehs ++ es ∧
      (∀ w, ((nodeTurn σ W n).veh w).xOld = (W.veh w).xOld) ∧
      ∀ w ∈ (W.link a).vehs, ((nodeTurn σ W n).veh w).x = (W.veh w).x ∧
        ((nodeTurn σ W n).veh w).moveRem = (W.veh w).moveRem := by
  obtain ⟨r1, k1⟩ := r.updates σ
  obtain ⟨r2, k2⟩ := Rest.foldl (fun W n r => Rest.nodeStage r n) σ.gen r1
  have s2 : Acts .gen (σ.update.foldl CWorld.linkUpdate W.clearExc) _ :=
    foldl_acts (fun W n r => Rest.nodeStage r n) (fun W n r => nodeStage_acts r n) σ.gen r1
  obtain ⟨_, _, _, u4⟩ := linkUpdates_par σ.update W.clearExc
  obtain ⟨_, f2⟩ := linkUpdates_flow σ.update W.clearExc
  have hv1 : ∀ w, (σ.update.foldl CWorld.linkUpdate W.clearExc).veh w = W.veh w := fun w => by rw [u4]; rfl
  have hl1 : ((σ.update.foldl CWorld.linkUpdate W.clearExc).link a).vehs = (W.link a).vehs := (f2 a).1
  obtain ⟨es, as2, _⟩ := s2.gen_aside a
  have rm2 := s2.gen_rems
  have k12 := k1.trans k2
  have hd : ((σ.gen.foldl CWorld.nodeStage (σ.update.foldl CWorld.linkUpdate W.clearExc)).link a).dst =
      (W.link a).dst := (congrArg CLink.dst (k12.link a) : _)
  unfold Spec.nodeTurn
  have e2 := as2.vehs
  rw [hl1] at e2
  have h0 : (∀ w, ((σ.gen.foldl CWorld.nodeStage (σ.update.foldl CWorld.linkUpdate W.clearExc)).veh w).xOld =
      (W.veh w).xOld) ∧ ∀ w ∈ (W.link a).vehs,
      ((σ.gen.foldl CWorld.nodeStage (σ.update.foldl CWorld.linkUpdate W.clearExc)).veh w).x = (W.veh w).x ∧
      ((σ.gen.foldl CWorld.nodeStage (σ.update.foldl CWorld.linkUpdate W.clearExc)).veh w).moveRem =
        (W.veh w).moveRem := by
    refine ⟨fun w => by rw [rm2.old w, hv1], fun w hw => ⟨?_, by rw [rm2.rem w trivial, hv1]⟩⟩
    rw [(as2.same w (by rw [hl1]; exact hw)).1, hv1]
  generalize σ.gen.foldl CWorld.nodeStage (σ.update.foldl CWorld.linkUpdate W.clearExc) = X at *
  have hax : a < X.g.nLinks := by rw [k12.g]; exact ha
  rw [← hd] at hn
  clear k12 hd s2 as2 rm2 k1 k2 f2 u4 hv1 hl1
  induction n with
  | zero => exact ⟨es, e2, h0⟩
  | succ m ih =>
    rw [List.range_succ, List.foldl_append]
    obtain ⟨fs, g1, g2, g3⟩ := ih (by omega)
    obtain ⟨r3, k3⟩ := Rest.foldl (f := CWorld.transfer) (fun W n r => by
      obtain ⟨a, b, c, _⟩ := r.inv.transfer (n := n) r.inc
      exact ⟨⟨a, c⟩, b⟩) (List.range m) r2
    have hni : a ∉ (((List.range m).foldl CWorld.transfer X).node m).inLinks := by
      rw [k3.inLinks]
      intro h
      have := ((r2.inv.inL m a).1 h).2
      omega
    obtain ⟨gs, h1, _, h3⟩ := transfer_enter r3 hni (by rw [k3.g]; exact hax)
    generalize (List.range m).foldl CWorld.transfer X = Y at *
    refine ⟨fs ++ gs, ?_, fun w => ?_, fun w hw => ?_⟩
    · show ((Y.transfer m).link a).vehs = _
      rw [h1.vehs, g1, List.append_assoc]
    · show ((Y.transfer m).veh w).xOld = _
      rw [h3.old, g2]
    · have hwY : w ∈ (Y.link a).vehs := by rw [g1]; exact List.mem_append_left _ hw
      show ((Y.transfer m).veh w).x = _ ∧ ((Y.transfer m).veh w).moveRem = _
      rw [(h1.same w hwY).1, h3.rem w (fun c hc hm => hni (r3.inv.uniq hm hwY ▸ hc))]
      exact g3 w hw

theorem Act.run_rem {W W' : CWorld} (h : Act .run W W') (w : ℕ) : (W'.veh w).moveRem = (W.veh w).moveRem := by
  cases h with
  | log _ v l s i hv => exact (congrArg CVeh.moveRem (logData_noLog W v s w) : _)
  | advance _ v l i hv =>
    unfold CWorld.advance
    rw [setV_veh]; split
    · rename_i e; subst e; rfl
    · rfl
  | abort _ v l i hv hd ho ha =>
    rw [setV_veh]; split
    · rename_i e; subst e; rfl
    · rfl
  | flag _ v l i hv hc hlg hx =>
    rw [setV_veh]; split
    · rename_i e; subst e; rfl
    · rfl
  | endRun _ v l t i hq hna hi hf => exact (endTripOn_rems W v l).rem w trivial
  | reqErr _ l e v i hv hd hc => rfl
  | req _ v l o rng i hv hd hc hx hlg =>
    rw [setL_veh, setV_veh]; split
    · rename_i e; subst e; rfl
    · rfl

theorem Acts.run_rem {W W' : CWorld} (h : Acts .run W W') (w : ℕ) : (W'.veh w).moveRem = (W.veh w).moveRem := by
  induction h with
  | refl => rfl
  | tail _ h2 ih => rw [h2.run_rem w, ih]

theorem Acts.wait_rem {W W' : CWorld} (h : Acts .wait W W') (w : ℕ) : (W'.veh w).moveRem = (W.veh w).moveRem := by
  induction h with
  | refl => rfl
  | tail _ h2 ih =>
    refine Eq.trans ?_ ih
    cases h2 with
    | waitLog _ n v i hv => exact (congrArg CVeh.moveRem (logData_noLog _ v none w) : _)

theorem followPos_eq (W : CWorld) (v l : ℕ) :
    W.followPos v l = beyond W l (W.veh v).x ((W.veh v).leader.map (fun u => (W.veh u).x)) := by
  have hg : jamGap W l = W.gap l := rfl
  unfold followPos beyond
  cases h : (W.veh v).leader with
  | none => simp only [Option.map_none]; exact max_if _ _
  | some u =>
    simp only [Option.map_some, hg]
    rw [max_if, max_if, min_if, max_min_distrib_left, max_min_distrib_left, ← max_assoc, max_self]

/-- The movement of a time step: every vehicle on a link at the end of it. -/
theorem region_rest {W : CWorld} (r : Rest W) (σ : Sched) (hσ : σ.Valid W) (p : KPar W)
    (h : KAll W (fun _ => 0)) (hex : ∀ l, l < W.g.nLinks → ((region σ W.clearExc).link l).exc = none) {l v : ℕ}
    (hv : v ∈ ((region σ W.clearExc).link l).vehs) :
    ∃ i, ((nodeTurn σ W W.g.nNodes).link l).vehs[i]? = some v ∧
      ((region σ W.clearExc).veh v).x = min (W.link l).len (beyond W l ((nodeTurn σ W W.g.nNodes).veh v).x
        ((placesAhead (nodeTurn σ W W.g.nNodes) l i).map (fun u => ((nodeTurn σ W W.g.nNodes).veh u).x))) ∧
      ((region σ W.clearExc).veh v).moveRem =
        if (W.link l).len < beyond W l ((nodeTurn σ W W.g.nNodes).veh v).x
          ((placesAhead (nodeTurn σ W W.g.nNodes) l i).map (fun u => ((nodeTurn σ W W.g.nNodes).veh u).x))
        then W.g.fl (beyond W l ((nodeTurn σ W W.g.nNodes).veh v).x
          ((placesAhead (nodeTurn σ W W.g.nNodes) l i).map (fun u => ((nodeTurn σ W W.g.nNodes).veh u).x)) -
            (W.link l).len)
        else ((nodeTurn σ W W.g.nNodes).veh v).moveRem := by
  have hrun : σ.run.Nodup := hσ.2.2.2.1.nodup_iff.2 List.nodup_range
  have kc := Keep.clearExc W
  have h0 : KAll W.clearExc (fun _ => 0) := h.quiet kc ⟨fun _ => rfl, fun _ => ⟨rfl, rfl, rfl⟩⟩
  have p0 := p.keep kc
  obtain ⟨r1, k1⟩ := r.updates σ
  obtain ⟨_, u2, u3, u4⟩ := linkUpdates_par σ.update W.clearExc
  obtain ⟨_, f2⟩ := linkUpdates_flow σ.update W.clearExc
  have q1 : Quiet W.clearExc (σ.update.foldl CWorld.linkUpdate W.clearExc) :=
    ⟨fun l => (f2 l).1, fun w => by rw [u4]; exact ⟨rfl, rfl, rfl⟩⟩
  obtain ⟨_, k1'⟩ := Rest.foldl (fun W l r => Rest.linkUpdate r l) σ.update
    (r.congr (core_clearExc W).symm : Rest W.clearExc)
  obtain ⟨r2, k2⟩ := Rest.foldl (fun W n r => Rest.nodeStage r n) σ.gen r1
  have hnn := (k1.trans k2).g
  unfold CWorld.region at hv hex ⊢
  unfold Spec.nodeTurn
  simp only at hv hex ⊢
  rw [hnn] at hv hex ⊢
  have h1 : KAll (σ.update.foldl CWorld.linkUpdate W.clearExc) (fun _ => 0) := h0.quiet k1' q1
  have p1 := p0.keep k1'
  have s2 : Acts .gen (σ.update.foldl CWorld.linkUpdate W.clearExc) _ :=
    foldl_acts (fun W n r => Rest.nodeStage r n) (fun W n r => nodeStage_acts r n) σ.gen r1
  generalize σ.update.foldl CWorld.linkUpdate W.clearExc = W1 at *
  generalize σ.gen.foldl CWorld.nodeStage W1 = W2 at *
  have h2 : KAll W2 (fun _ => 0) := fun m hm => Acts.genKL s2 p1 (h1 m (by rw [← k2.g]; exact hm))
  have p2 := p1.keep k2
  obtain ⟨r3, k3, c3⟩ := transferAll r2
  obtain ⟨κ, h3⟩ := transferAll_kl (List.range W2.g.nNodes) List.nodup_range r2 p2 h2 (fun _ _ _ => rfl)
  rw [hnn] at r3 k3 c3 h3
  generalize (List.range W.g.nNodes).foldl CWorld.transfer W2 = W3 at *
  have p3 := p2.keep k3
  have k13 := (k1.trans k2).trans k3
  obtain ⟨r4, k4⟩ := Rest.foldl (fun W l r => Rest.followPass r l) σ.follow r3
  have hc4 : (σ.follow.foldl CWorld.followPass W3).core = W3.core :=
    core_foldl _ (fun W l => core_followPass W l) σ.follow W3
  have c4 : ∀ l, Clear (σ.follow.foldl CWorld.followPass W3) l := fun l => by
    unfold Clear; rw [core_arrived hc4]; exact c3 l
  have hls : ∀ l, l < W3.g.nLinks → l ∈ σ.follow := fun l hl =>
    hσ.2.2.1.mem_iff.2 (List.mem_range.2 (by rw [← k13.g]; exact hl))
  have rl4 : ∀ l, l < W3.g.nLinks → RL (σ.follow.foldl CWorld.followPass W3) l := follow_rl r3 h3 hls
  have am := Aimed.passes σ.follow (Aimed.refl W3)
  have p4 := p3.keep k4
  generalize σ.follow.foldl CWorld.followPass W3 = W4 at *
  have k14 := k13.trans k4
  have ri : RunInv W4 W4 (fun _ => False) :=
    ⟨fun l hl => rl4 l (by rw [← k4.g]; exact hl), fun _ _ hw => ⟨hw, rfl, rfl⟩, fun _ hw => hw.elim⟩
  obtain ⟨r5, k5⟩ := runAll σ.run hrun r4 (fun l _ => c4 l)
  have s5 := runAll_acts σ.run hrun r4 (fun l _ => c4 l)
  have s6 : Acts .wait (σ.run.foldl CWorld.runPass W4) (σ.wait.foldl CWorld.waitPass (σ.run.foldl CWorld.runPass W4)) :=
    foldl_acts (fun W n r => Rest.waitPass r n) (fun W n r => waitPass_acts r n) σ.wait r5
  have hrl : ∀ l ∈ σ.run, l < W.g.nLinks := fun l hl => List.mem_range.1 (hσ.2.2.2.1.mem_iff.1 hl)
  have ri5 := runAll_inv σ.run hrun r4 (fun l _ => c4 l) p4.fl ri
    (fun l hl => Acts.exc (Or.inr rfl) s6 l (hex l (hrl l hl)))
  generalize σ.run.foldl CWorld.runPass W4 = W5 at *
  have k15 := k14.trans k5
  have q6 := Acts.waitQuiet s6
  have m6 := Acts.wait_rem s6 v
  generalize σ.wait.foldl CWorld.waitPass W5 = W6 at *
  rw [q6.1] at hv
  have hx : (W5.veh v).x = (W5.veh v).xNext :=
    (ri5.done v (Or.inr ⟨l, hσ.2.2.2.1.mem_iff.2 (List.mem_range.2 (by
      rw [← k15.g]; exact (r5.inv.mem l v hv).2.2.1)), hv⟩) l hv).2
  obtain ⟨m4, x4, _⟩ := ri5.nxt l v hv
  rw [am.placed.link] at m4
  obtain ⟨hlk, _, hlt, _⟩ := r3.inv.mem l v m4
  obtain ⟨pp, qq, e4, _, hd⟩ := am.veh v
  obtain ⟨hp, hq⟩ := hd (Or.inr ⟨l, hls l hlt, m4⟩) l hlk
  obtain ⟨i, hi⟩ := List.mem_iff_getElem?.1 m4
  have hle : (W3.veh v).leader = placesAhead W3 l i := (r3.inv.linked l hlt i v hi).1
  have hf := followPos_eq W3 v l
  rw [hle] at hf
  have hb : ∀ x y, beyond W3 l x y = beyond W l x y := fun x y => by
    unfold beyond jamGap
    rw [k13.samePar.vmax, k13.samePar.dlane, k13.g]
  rw [hb] at hf
  refine ⟨i, hi, ?_, ?_⟩
  · rw [(q6.2 v).1, hx, x4, e4, ← hf]
    show pp = _
    rw [hp, ← k13.samePar.len]
    unfold CWorld.aim
    split
    · rename_i h; exact (min_eq_left h.le).symm
    · rename_i h; exact (min_eq_right (not_lt.1 h)).symm
  · rw [m6, s5.run_rem v, e4, ← hf]
    show qq = _
    rw [hq, ← k13.samePar.len, ← (show W3.g.fl = W.g.fl by rw [k13.g])]
    rfl

theorem homePass_other (xs : List ℕ) (hnd : xs.Nodup) {W : CWorld} (r : Rest W)
    (hx : ∀ v ∈ xs, v < W.g.nVehs ∧ (W.veh v).state = .home) {w : ℕ} (hw : w ∉ xs) :
    (xs.foldl (fun W v => W.vehUpdate v none) W).veh w = W.veh w := by
  induction xs generalizing W with
  | nil => rfl
  | cons v t ih =>
    obtain ⟨hv, ht⟩ := List.nodup_cons.1 hnd
    obtain ⟨p, q, g, e⟩ := r.homeVeh (hx v (by simp)).1 (hx v (by simp)).2
    rw [List.foldl_cons, ih ht p (fun w hw => by
      rw [g, e w (fun h => hv (h ▸ hw))]; exact hx w (by simp [hw])) (fun h => hw (by simp [h]))]
    exact e w (fun h => hw (by simp [h]))

theorem step_rest {W : CWorld} (r : Rest W) {σ : Sched} (hσ : σ.Valid W) {home : List ℕ}
    (hnd : home.Nodup) (hh : ∀ v ∈ home, v < W.g.nVehs ∧ (W.veh v).state = .home) {W' : CWorld}
    (he : CWorld.stepWith σ home W = (W', none)) :
    (∀ l, l < W.g.nLinks → ((region σ W.clearExc).link l).exc = none) ∧
    ∀ l v, v ∈ (W'.link l).vehs → v ∈ ((region σ W.clearExc).link l).vehs ∧
      (W'.veh v).x = ((region σ W.clearExc).veh v).x ∧
      (W'.veh v).moveRem = ((region σ W.clearExc).veh v).moveRem := by
  have hrun : σ.run.Nodup := hσ.2.2.2.1.nodup_iff.2 List.nodup_range
  have r0 : Rest W.clearExc := r.congr (core_clearExc W).symm
  obtain ⟨r1, k1⟩ := r0.region σ hrun
  have kk := (Keep.clearExc W).trans k1
  unfold CWorld.stepWith at he
  simp only at he
  generalize CWorld.region σ W.clearExc = W6 at *
  split at he
  · simp at he
  rename_i hex
  refine ⟨fun l hl => firstExc_none hex l (by rw [kk.g]; exact hl), fun l v hv => ?_⟩
  have hx : ∀ v ∈ home, v < W6.g.nVehs ∧ (W6.veh v).state = .home := fun v hv => by
    rw [kk.g, kk.home v (hh v hv).2]; exact hh v hv
  have q7 := homePass_quiet home hnd r1 hx
  have o7 := fun w hw => homePass_other home hnd r1 hx (w := w) hw
  obtain rfl := congrArg Prod.fst he
  simp only at hv ⊢
  generalize home.foldl (fun (W : CWorld) v => W.vehUpdate v none) W6 = W7 at *
  rw [(endStep_quiet W7).1, q7.1] at hv
  have hne : v ∉ home := fun hm => by
    have := (r1.inv.mem l v hv).2.1
    rw [(hx v hm).2] at this; simp at this
  rw [endStep_veh, o7 v hne]
  exact ⟨hv, rfl, rfl⟩

/-- One completed time step. -/
theorem main_rest {sched : ℕ → CWorld → Sched} (hs : ∀ t V, (sched t V).Valid V) {W W' : CWorld}
    (r : Rest W) {endTs : ℕ} (hr : W.mainLoop sched endTs = (W', none))
    (ht : W'.g.timestep = W.g.timestep + 1) :
    (∀ l, l < W.g.nLinks → ((region (sched W.g.timestep W) W.clearExc).link l).exc = none) ∧
    ∀ l v, v ∈ (W'.link l).vehs → v ∈ ((region (sched W.g.timestep W) W.clearExc).link l).vehs ∧
      (W'.veh v).x = ((region (sched W.g.timestep W) W.clearExc).veh v).x ∧
      (W'.veh v).moveRem = ((region (sched W.g.timestep W) W.clearExc).veh v).moveRem := by
  have h1 := (mainLoop_keep r (fun t V _ => (hs t V).2.2.2.1.nodup_iff.2 List.nodup_range) hr).2
  unfold CWorld.mainLoop at hr
  have hk : min endTs W.g.totalSteps - W.g.timestep = 1 := by omega
  rw [hk, CWorld.loopFrom] at hr
  cases he : CWorld.stepWith (sched W.g.timestep W) (W.bucket W.g.timestep W.g.timestep) W with
  | mk W1 e =>
    rw [he] at hr
    simp only at hr
    cases e with
    | some e => simp at hr
    | none =>
      simp only at hr
      have := step_rest r (hs W.g.timestep W) (bucket_nodup W _ _)
        (fun v hv => ⟨(mem_bucket.1 hv).1, (mem_bucket.1 hv).2.1⟩) he
      rw [CWorld.loopFrom] at hr
      obtain rfl := congrArg Prod.fst hr
      exact this

end UX.Cpp
