import Verif.Proofs.CppEvents
import Verif.Proofs.CppHistory

/-!
# Random streams in `hard_deterministic_mode`

Replacing the random streams commutes with every function of a time step.
-/

namespace UX.Cpp
open CWorld

/-- The world with other random streams. -/
def CWorld.rho (a b : ℕ → ℕ → ℕ) (W : CWorld) : CWorld :=
  { W with node := fun n => { W.node n with rng := a n }, link := fun l => { W.link l with rng := b l } }

variable {a b : ℕ → ℕ → ℕ} {W : CWorld}

theorem rho_setV (v : ℕ) (f : CVeh → CVeh) : (W.setV v f).rho a b = (W.rho a b).setV v f := rfl

theorem rho_setN (n : ℕ) (f : CNode → CNode) (h : ∀ N r, f { N with rng := r } = { f N with rng := r }) :
    (W.setN n f).rho a b = (W.rho a b).setN n f := by
  unfold CWorld.rho CWorld.setN
  congr 1
  funext m
  simp only [upd]
  split
  · rename_i e; subst e; exact (h (W.node m) (a m)).symm
  · rfl

theorem rho_setL (l : ℕ) (f : CLink → CLink) (h : ∀ L r, f { L with rng := r } = { f L with rng := r }) :
    (W.setL l f).rho a b = (W.rho a b).setL l f := by
  unfold CWorld.rho CWorld.setL
  congr 1
  funext m
  simp only [upd]
  split
  · rename_i e; subst e; exact (h (W.link m) (b m)).symm
  · rfl

/-- Setting the stream to what it is. -/
theorem rho_setN_rng (n : ℕ) : (W.rho a b).setN n (fun N => { N with rng := a n }) = W.rho a b := by
  unfold CWorld.rho CWorld.setN
  congr 1
  funext m
  simp only [upd]
  split
  · rename_i e; subst e; rfl
  · rfl

theorem setN_rng_self (n : ℕ) : W.setN n (fun N => { N with rng := (W.node n).rng }) = W := by
  cases W
  unfold CWorld.setN
  congr 1
  funext m
  simp only [upd]
  split
  · rename_i e; subst e; rfl
  · rfl

theorem rho_foldl {α : Type} {f : CWorld → α → CWorld} (hg : ∀ W x, (f W x).g = W.g)
    (h : ∀ W x, W.g.hardDet = true → (f W x).rho a b = f (W.rho a b) x) (xs : List α) (W : CWorld)
    (hd : W.g.hardDet = true) : (xs.foldl f W).rho a b = xs.foldl f (W.rho a b) := by
  induction xs generalizing W with
  | nil => rfl
  | cons x t ih => rw [List.foldl_cons, List.foldl_cons, ih _ (by rw [hg]; exact hd), h W x hd]

theorem foldl_keep_g {α : Type} {f : CWorld → α → CWorld} (hg : ∀ W x, (f W x).g = W.g) (xs : List α) (W : CWorld) :
    (xs.foldl f W).g = W.g := by
  induction xs generalizing W with
  | nil => rfl
  | cons x t ih => rw [List.foldl_cons, ih, hg]

/-! ## Link update, node stage -/

theorem rho_linkUpdate (l : ℕ) : (W.linkUpdate l).rho a b = (W.rho a b).linkUpdate l :=
  rho_setL l _ (fun _ _ => rfl)

/-- In this mode the choice passes the stream on. -/
theorem choose_det (hd : W.g.hardDet = true) (v : ℕ) (ls : List ℕ) :
    ∃ o : Except CErr (Option ℕ), ∀ r, W.chooseNext v ls r = o.map (fun x => (x, r)) := by
  unfold chooseNext
  split
  · exact ⟨.ok none, fun r => rfl⟩
  · split
    · split
      · exact ⟨.error .outOfRange, fun r => rfl⟩
      · split
        · exact ⟨.ok _, fun r => rfl⟩
        · exact ⟨.error .invalidArgument, fun r => rfl⟩
    · simp only
      split
      · exact ⟨.error .invalidArgument, fun r => rfl⟩
      · refine ⟨.ok (W.drawLink v (W.cyclicFilter v (W.avoidFilter v (W.preferFilter v ls))) (fun _ => 0)).1,
          fun r => ?_⟩
        unfold drawLink
        rw [if_pos hd, if_pos hd]; rfl

theorem rho_attach (v l : ℕ) : (W.attach v l).rho a b = (W.rho a b).attach v l := by
  simp only [attach]
  show CWorld.rho a b (if (W.link l).lanes ≤ (W.link l).vehs.length then _ else _) =
    if (W.link l).lanes ≤ (W.link l).vehs.length then _ else _
  split
  · show CWorld.rho a b (match (W.link l).vehs[(W.link l).vehs.length - (W.link l).lanes]? with
      | some u => _ | none => _) = match (W.link l).vehs[(W.link l).vehs.length - (W.link l).lanes]? with
      | some u => _ | none => _
    split <;> rfl
  · rfl

theorem attach_keep_g (v l : ℕ) : (W.attach v l).g = W.g := by
  simp only [attach]
  split
  · split <;> rfl
  · rfl

theorem rho_depart (n v l : ℕ) : (W.depart n v l).rho a b = (W.rho a b).depart n v l := by
  simp only [depart]
  rw [rho_setL, rho_attach, rho_setV, rho_setN]
  · rfl
  · intros; rfl
  · intros; rfl

theorem depart_keep_g (n v l : ℕ) : (W.depart n v l).g = W.g := by
  simp only [depart, setL_g, attach_keep_g, setV_g, setN_g]

theorem genLoop_keep_g (n k : ℕ) (W : CWorld) : (genLoop n k W).g = W.g := by
  induction k generalizing W with
  | zero => rfl
  | succ k ih =>
    unfold genLoop
    split
    · rfl
    · split
      · rfl
      · simp only
        split
        · rfl
        · split
          · rw [ih, depart_keep_g]; rfl
          · rfl

theorem rho_genLoop (n k : ℕ) (W : CWorld) (hd : W.g.hardDet = true) :
    (genLoop n k W).rho a b = genLoop n k (W.rho a b) := by
  induction k generalizing W with
  | zero => rfl
  | succ k ih =>
    rw [genLoop, genLoop]
    show CWorld.rho a b (match (W.node n).genQ with | [] => _ | v :: _ => _) =
      match (W.node n).genQ with | [] => _ | v :: _ => _
    cases hq : (W.node n).genQ with
    | nil => rfl
    | cons v t =>
      simp only
      obtain ⟨o, ho⟩ := choose_det hd v (W.node n).outLinks
      have ho' : (W.rho a b).chooseNext v ((W.rho a b).node n).outLinks ((W.rho a b).node n).rng =
          o.map (fun x => (x, a n)) := ho (a n)
      rw [ho, ho']
      cases o with
      | error e => exact rho_setN n _ (fun _ _ => rfl)
      | ok o =>
        simp only [Except.map]
        rw [setN_rng_self, rho_setN_rng]
        cases o with
        | none => rfl
        | some l =>
          simp only
          show CWorld.rho a b (if (W.setV v (fun V => { V with next := some l })).canEnter l = true then _ else _) =
            if (W.setV v (fun V => { V with next := some l })).canEnter l = true then _ else _
          split
          · rw [ih _ (by rw [depart_keep_g]; exact hd), rho_depart]; rfl
          · rfl

theorem generate_keep_g (n : ℕ) : (W.generate n).g = W.g := by
  unfold generate; split
  · rfl
  · exact genLoop_keep_g _ _ _

theorem rho_generate (n : ℕ) (hd : W.g.hardDet = true) : (W.generate n).rho a b = (W.rho a b).generate n := by
  unfold generate
  show CWorld.rho a b (if (W.node n).genQ = [] ∨ (W.node n).outLinks = [] then _ else _) =
    if (W.node n).genQ = [] ∨ (W.node n).outLinks = [] then _ else _
  split
  · rfl
  · exact rho_genLoop _ _ _ hd

theorem rho_nodeStage (n : ℕ) (hd : W.g.hardDet = true) : (W.nodeStage n).rho a b = (W.rho a b).nodeStage n := by
  unfold nodeStage
  rw [← rho_generate n hd]
  generalize W.generate n = V
  have h1 : (V.signalUpdate n).rho a b = (V.rho a b).signalUpdate n := rho_setN n _ (fun _ _ => rfl)
  rw [← h1]
  exact rho_setN n _ (fun _ _ => rfl)

/-! ## Logging, ends of trips -/

theorem rho_logStats (v : ℕ) : (W.logStats v).rho a b = (W.rho a b).logStats v := by
  unfold logStats
  show CWorld.rho a b (match (W.veh v).state, (W.veh v).link with
    | .run, some l => _ | .wait, _ => _ | _, _ => _) = match (W.veh v).state, (W.veh v).link with
    | .run, some l => _ | .wait, _ => _ | _, _ => _
  split
  · exact rho_setL _ _ (fun _ _ => rfl)
  · exact rho_setN _ _ (fun _ _ => rfl)
  · rfl

theorem rho_logData (v : ℕ) (s : Option ℕ) : (W.logData v s).rho a b = (W.rho a b).logData v s := by
  unfold logData
  rw [← rho_logStats]
  generalize W.logStats v = V
  unfold logPush
  show CWorld.rho a b (if V.g.logMode = true then _ else _) = if V.g.logMode = true then _ else _
  split <;> rfl

theorem logData_keep_g (v : ℕ) (s : Option ℕ) : (W.logData v s).g = W.g := by
  unfold logData logPush
  split
  · exact logStats_g W v
  · exact logStats_g W v

theorem rho_detach (v : ℕ) : (W.detach v).rho a b = (W.rho a b).detach v := by
  unfold detach
  show CWorld.rho a b (match (W.veh v).follower with | some f => _ | none => _) =
    match (W.veh v).follower with | some f => _ | none => _
  split <;> rfl

theorem rho_endTripOn (v l : ℕ) : (W.endTripOn v l).rho a b = (W.rho a b).endTripOn v l := by
  simp only [endTripOn]
  rw [rho_logData, rho_setV, rho_detach, rho_setL]
  · rfl
  · intros; rfl

theorem endTripOn_keep_g (v l : ℕ) : (W.endTripOn v l).g = W.g := by
  simp only [endTripOn, logData_keep_g, setV_g, detach_g, setL_g]

theorem rho_endTrip (v : ℕ) : (W.endTrip v).rho a b = (W.rho a b).endTrip v := by
  unfold endTrip
  show CWorld.rho a b (match (W.veh v).link with | none => _ | some l => _) =
    match (W.veh v).link with | none => _ | some l => _
  split
  · rfl
  · exact rho_endTripOn _ _

theorem endTrip_keep_g (v : ℕ) : (W.endTrip v).g = W.g := by
  unfold endTrip; split
  · rfl
  · exact endTripOn_keep_g _ _

/-! ## Transfer -/

theorem rho_collect (n : ℕ) : (W.collect n).rho a b = (W.rho a b).collect n := by
  have h : ∀ (xs : List ℕ) (V : CWorld), (xs.foldl (fun W x => W.setL x (fun L => { L with arrived := [] })) V).rho a b =
      xs.foldl (fun W x => W.setL x (fun L => { L with arrived := [] })) (V.rho a b) := by
    intro xs
    induction xs with
    | nil => intro V; rfl
    | cons x t ih => intro V; rw [List.foldl_cons, List.foldl_cons, ih, rho_setL]; intros; rfl
  simp only [collect]
  rw [rho_setN, h]
  · rfl
  · intros; rfl

theorem rho_endFront (l : ℕ) : ((W.endFront l).1.rho a b, (W.endFront l).2) = (W.rho a b).endFront l := by
  have e : ((W.rho a b).link l).vehs = (W.link l).vehs := rfl
  unfold endFront
  rw [e]
  cases (W.link l).vehs with
  | nil => rfl
  | cons h t =>
    have e2 : ((W.rho a b).veh h).flagWait = (W.veh h).flagWait := rfl
    simp only
    rw [e2]
    split
    · exact Prod.ext (rho_endTrip h) rfl
    · rfl

theorem endFront_keep_g (l : ℕ) : (W.endFront l).1.g = W.g := by
  unfold endFront; split
  · rfl
  · split
    · exact endTrip_keep_g _
    · rfl

theorem rho_leave (n v x y : ℕ) : (W.leave n v x y).rho a b = (W.rho a b).leave n v x y := by
  simp only [leave]
  rw [rho_setV, rho_detach]
  congr 1
  congr 1
  show CWorld.rho a b (if 0 ≤ (W.node n).flowCap then _ else _) = if 0 ≤ (W.node n).flowCap then _ else _
  split
  · rw [rho_setN, rho_setL, rho_setL]
    · rfl
    all_goals intros; rfl
  · rw [rho_setL, rho_setL]
    · rfl
    all_goals intros; rfl

theorem rho_place (v : ℕ) (q : ℚ) : (W.place v q).rho a b = (W.rho a b).place v q := rfl

theorem rho_carry (v x y : ℕ) : (W.rho a b).carry v x y = W.carry v x y := rfl

theorem rho_moveVeh (n v x y : ℕ) : (W.moveVeh n v x y).rho a b = (W.rho a b).moveVeh n v x y := by
  simp only [moveVeh]
  rw [rho_setN, rho_setL, ← rho_leave, ← rho_attach, rho_carry, ← rho_place, ← rho_endFront]
  all_goals intros; rfl

theorem moveVeh_keep_g (n v x y : ℕ) : (W.moveVeh n v x y).g = W.g := by
  simp only [moveVeh, setN_g, setL_g, endFront_keep_g, place, setV_g, attach_keep_g, leave_g]

theorem rho_mayMove (n y : ℕ) : (W.rho a b).mayMove n y = W.mayMove n y := rfl

theorem rho_canEnter (l : ℕ) : (W.rho a b).canEnter l = W.canEnter l := rfl

theorem rho_pickMerge (n : ℕ) (vs : List ℕ) (hd : W.g.hardDet = true) :
    W.pickMerge n vs = ((W.pickMerge n vs).1, W) ∧ (W.rho a b).pickMerge n vs = ((W.pickMerge n vs).1, W.rho a b) := by
  unfold pickMerge
  have hd' : (W.rho a b).g.hardDet = true := hd
  rw [if_pos hd, if_pos hd']
  exact ⟨rfl, rfl⟩

theorem transferOne_keep_g (n : ℕ) (W : CWorld) (y : ℕ) : (transferOne n W y).g = W.g := by
  have hp : ∀ vs, (W.pickMerge n vs).2.g = W.g := fun vs => by unfold pickMerge; split <;> rfl
  unfold transferOne
  split
  · split
    · rfl
    · rename_i v0 vs _
      split
      · rename_i V e; rw [← hp (v0 :: vs), e]
      · rename_i v V e
        have := hp (v0 :: vs)
        rw [e] at this
        split
        · exact this
        · rw [moveVeh_keep_g]; exact this
  · rfl

theorem rho_transferOne (n : ℕ) (W : CWorld) (y : ℕ) (hd : W.g.hardDet = true) :
    (transferOne n W y).rho a b = transferOne n (W.rho a b) y := by
  unfold transferOne
  show CWorld.rho a b (if (W.canEnter y && !decide ((W.node n).flowRem < W.g.deltaN)) = true then _ else _) =
    if (W.canEnter y && !decide ((W.node n).flowRem < W.g.deltaN)) = true then _ else _
  split
  · show CWorld.rho a b (match (W.node n).incoming.filter (W.mayMove n y) with | [] => _ | v0 :: vs => _) =
      match (W.node n).incoming.filter (W.mayMove n y) with | [] => _ | v0 :: vs => _
    split
    · rfl
    · rename_i v0 vs _
      obtain ⟨p1, p2⟩ := rho_pickMerge (a := a) (b := b) n (v0 :: vs) hd
      rw [p1, p2]
      cases (W.pickMerge n (v0 :: vs)).1 with
      | none => rfl
      | some v =>
        simp only
        show CWorld.rho a b (match (W.veh v).link with | none => _ | some x => _) =
          match (W.veh v).link with | none => _ | some x => _
        split
        · rfl
        · exact rho_moveVeh _ _ _ _
  · rfl

theorem endFronts_keep_g (l k : ℕ) (W : CWorld) : (endFronts l k W).g = W.g := by
  induction k generalizing W with
  | zero => rfl
  | succ k ih =>
    unfold endFronts; split
    · rw [ih, endFront_keep_g]
    · rfl

theorem rho_endFronts (l k : ℕ) (W : CWorld) : (endFronts l k W).rho a b = endFronts l k (W.rho a b) := by
  induction k generalizing W with
  | zero => rfl
  | succ k ih =>
    unfold endFronts
    rw [← rho_endFront]
    simp only
    split
    · exact ih _
    · rfl

theorem rho_transfer (n : ℕ) (hd : W.g.hardDet = true) : (W.transfer n).rho a b = (W.rho a b).transfer n := by
  have e : ∀ V : CWorld, V.g.hardDet = true → V.shuffleSlots n = (V.slots n, V) := fun V h => by
    unfold shuffleSlots; rw [if_pos h]
  have hc : (W.collect n).g.hardDet = true := by rw [collect_g]; exact hd
  unfold transfer
  rw [e _ hc, e _ (show ((W.rho a b).collect n).g.hardDet = true by rw [← rho_collect]; exact hc)]
  simp only
  rw [rho_setN _ _ (fun _ _ => rfl), ← rho_collect]
  congr 1
  generalize W.collect n = V at hc
  have h1 := rho_foldl (a := a) (b := b) (transferOne_keep_g n) (fun W x h => rho_transferOne n W x h) (V.slots n) V hc
  have hs : (V.rho a b).slots n = V.slots n := rfl
  rw [hs, ← h1]
  have hg : (List.foldl (transferOne n) V (V.slots n)).g.hardDet = true := by
    rw [foldl_keep_g (transferOne_keep_g n)]; exact hc
  generalize List.foldl (transferOne n) V (V.slots n) = X at hg
  exact rho_foldl (f := fun W x => endFronts x (W.link x).lanes W) (fun W x => endFronts_keep_g _ _ _)
    (fun W x _ => rho_endFronts _ _ _) (X.node n).inLinks X hg

theorem transfer_keep_g (n : ℕ) (W : CWorld) : (W.transfer n).g = W.g := by
  have hs : ∀ V : CWorld, (V.shuffleSlots n).2.g = V.g := fun V => by unfold shuffleSlots; split <;> rfl
  unfold transfer
  simp only [setN_g]
  rw [foldl_keep_g (fun W x => endFronts_keep_g _ _ _), foldl_keep_g (transferOne_keep_g n), hs, collect_g]

/-! ## Car following, RUN and WAIT pass -/

theorem rho_carFollow (W : CWorld) (v : ℕ) : (W.carFollow v).rho a b = (W.rho a b).carFollow v := by
  unfold carFollow
  show CWorld.rho a b (match (W.veh v).link with | none => _ | some l => _) =
    match (W.veh v).link with | none => _ | some l => _
  split
  · rfl
  · rename_i l _
    show CWorld.rho a b (if (W.link l).len < W.followPos v l then _ else _) =
      if (W.link l).len < W.followPos v l then _ else _
    split <;> rfl

theorem carFollow_keep_g (W : CWorld) (v : ℕ) : (W.carFollow v).g = W.g := by
  unfold carFollow; split
  · rfl
  · split <;> rfl

theorem rho_waitEnd (v l : ℕ) : (W.waitEnd v l).rho a b = (W.rho a b).waitEnd v l := by
  simp only [waitEnd]
  show CWorld.rho a b (if (W.link l).vehs.head? = some v then _ else _) =
    if (W.link l).vehs.head? = some v then _ else _
  split
  · exact rho_endTrip v
  · rfl

theorem waitEnd_keep_g (v l : ℕ) : (W.waitEnd v l).g = W.g := by
  simp only [waitEnd]; split
  · rw [endTrip_keep_g]; rfl
  · rfl

theorem rho_request (v l : ℕ) (hd : W.g.hardDet = true) : (W.request v l).rho a b = (W.rho a b).request v l := by
  unfold request
  obtain ⟨o, ho⟩ := choose_det hd v (W.node (W.link l).dst).outLinks
  have ho' : (W.rho a b).chooseNext v ((W.rho a b).node ((W.rho a b).link l).dst).outLinks ((W.rho a b).link l).rng =
      o.map (fun x => (x, b l)) := ho (b l)
  rw [ho, ho']
  cases o with
  | error e => exact rho_setL _ _ (fun _ _ => rfl)
  | ok o =>
    simp only [Except.map]
    generalize hV : W.setV v (fun V => { V with next := o }) = V
    have e2 : (W.rho a b).setV v (fun V => { V with next := o }) = V.rho a b := by rw [← hV]; rfl
    have e3 : (W.link l).rng = (V.link l).rng := by rw [← hV]; rfl
    rw [e2, e3]
    unfold CWorld.rho CWorld.setL
    congr 1
    funext m
    simp only [upd]
    split
    · rename_i e; subst e; rfl
    · rfl

theorem request_keep_g (v l : ℕ) : (W.request v l).g = W.g := by
  unfold request; split <;> rfl

theorem rho_atEnd (v l : ℕ) (hd : W.g.hardDet = true) : (W.atEnd v l).rho a b = (W.rho a b).atEnd v l := by
  unfold atEnd
  show CWorld.rho a b (if (W.link l).dst = (W.veh v).dest then _ else
      if (W.node (W.link l).dst).outLinks = [] ∧ (W.veh v).tripAbort = true then _ else _) =
    if (W.link l).dst = (W.veh v).dest then _ else
      if (W.node (W.link l).dst).outLinks = [] ∧ (W.veh v).tripAbort = true then _ else _
  split
  · exact rho_waitEnd v l
  · split
    · exact rho_waitEnd v l
    · exact rho_request v l hd

theorem atEnd_keep_g (v l : ℕ) : (W.atEnd v l).g = W.g := by
  unfold atEnd; split
  · exact waitEnd_keep_g _ _
  · split
    · rw [waitEnd_keep_g]; rfl
    · exact request_keep_g _ _

theorem rho_vehUpdate (W : CWorld) (v : ℕ) (s : Option ℕ) (hd : W.g.hardDet = true) :
    (W.vehUpdate v s).rho a b = (W.rho a b).vehUpdate v s := by
  simp only [vehUpdate]
  rw [← rho_logData]
  have hd' : (W.logData v s).g.hardDet = true := by rw [logData_keep_g]; exact hd
  generalize W.logData v s = V at hd'
  show CWorld.rho a b (match (V.veh v).state with | .home => _ | .run => _ | _ => _) =
    match (V.veh v).state with | .home => _ | .run => _ | _ => _
  split
  · show CWorld.rho a b (if (V.veh v).depTime ≤ V.now then _ else _) = if (V.veh v).depTime ≤ V.now then _ else _
    split
    · exact rho_setN _ _ (fun _ _ => rfl)
    · rfl
  · have e : (V.rho a b).advance v = (V.advance v).rho a b := rfl
    have hd2 : (V.advance v).g.hardDet = true := hd'
    rw [e]
    generalize V.advance v = X at hd2
    show CWorld.rho a b (match (X.veh v).link with | none => _ | some l => _) =
      match (X.veh v).link with | none => _ | some l => _
    split
    · rfl
    · rename_i l _
      show CWorld.rho a b (if |X.g.fl ((X.veh v).x - (X.link l).len)| < 1 / 1000000000 then _ else _) =
        if |X.g.fl ((X.veh v).x - (X.link l).len)| < 1 / 1000000000 then _ else _
      split
      · exact rho_atEnd v l hd2
      · rfl
  · rfl

theorem vehUpdate_keep_g (W : CWorld) (v : ℕ) (s : Option ℕ) : (W.vehUpdate v s).g = W.g := by
  simp only [vehUpdate]
  split
  · split
    · exact logData_keep_g v s
    · exact logData_keep_g v s
  · split
    · exact logData_keep_g v s
    · split
      · rw [atEnd_keep_g]; exact logData_keep_g v s
      · exact logData_keep_g v s
  · exact logData_keep_g v s

theorem runVeh_keep_g (l : ℕ) (W : CWorld) (p : ℕ × Option ℕ) : (runVeh l W p).g = W.g := by
  unfold runVeh; split
  · exact vehUpdate_keep_g _ _ _
  · rfl

theorem rho_runPass (W : CWorld) (l : ℕ) (hd : W.g.hardDet = true) : (W.runPass l).rho a b = (W.rho a b).runPass l := by
  refine rho_foldl (runVeh_keep_g l) (fun W p hd => ?_) _ W hd
  unfold runVeh
  show CWorld.rho a b (if (W.link l).exc = none then _ else _) = if (W.link l).exc = none then _ else _
  split
  · exact rho_vehUpdate _ _ _ hd
  · rfl

theorem rho_vehAll (xs : List ℕ) (W : CWorld) (hd : W.g.hardDet = true) :
    (xs.foldl (fun W v => W.vehUpdate v none) W).rho a b = xs.foldl (fun W v => W.vehUpdate v none) (W.rho a b) :=
  rho_foldl (f := fun W v => W.vehUpdate v none) (fun W v => vehUpdate_keep_g W v none)
    (fun W v h => rho_vehUpdate W v none h) xs W hd

/-! ## The time step -/

theorem rho_region (σ : Sched) (hd : W.g.hardDet = true) : (region σ W).rho a b = region σ (W.rho a b) := by
  simp only [region]
  rw [← rho_foldl (f := linkUpdate) (fun _ _ => rfl) (fun W l _ => rho_linkUpdate l) σ.update W hd]
  have h1 : (σ.update.foldl linkUpdate W).g.hardDet = true := by
    rw [foldl_keep_g (f := linkUpdate) (fun _ _ => rfl)]; exact hd
  generalize σ.update.foldl linkUpdate W = W1 at h1
  rw [← rho_foldl (f := nodeStage) (fun W n => nodeStage_g W n) (fun W n h => rho_nodeStage n h) σ.gen W1 h1]
  have h2 : (σ.gen.foldl nodeStage W1).g.hardDet = true := by rw [foldl_keep_g (fun W n => nodeStage_g W n)]; exact h1
  generalize σ.gen.foldl nodeStage W1 = W2 at h2
  rw [show (W2.rho a b).g.nNodes = W2.g.nNodes from rfl,
    ← rho_foldl (f := transfer) (fun W n => transfer_keep_g n W) (fun W n h => rho_transfer n h)
      (List.range W2.g.nNodes) W2 h2]
  have h3 : ((List.range W2.g.nNodes).foldl transfer W2).g.hardDet = true := by
    rw [foldl_keep_g (fun W n => transfer_keep_g n W)]; exact h2
  generalize (List.range W2.g.nNodes).foldl transfer W2 = W3 at h3
  have hf : ∀ (W : CWorld) (l : ℕ), (W.followPass l).g = W.g := fun W l => foldl_keep_g carFollow_keep_g _ _
  rw [← rho_foldl (f := followPass) hf
    (fun W l h => rho_foldl carFollow_keep_g (fun W v _ => rho_carFollow W v) _ W h) σ.follow W3 h3]
  have h4 : (σ.follow.foldl followPass W3).g.hardDet = true := by rw [foldl_keep_g hf]; exact h3
  generalize σ.follow.foldl followPass W3 = W4 at h4
  have hr : ∀ (W : CWorld) (l : ℕ), (W.runPass l).g = W.g := fun W l => foldl_keep_g (runVeh_keep_g l) _ _
  rw [← rho_foldl (f := runPass) hr (fun W l h => rho_runPass W l h) σ.run W4 h4]
  have h5 : (σ.run.foldl runPass W4).g.hardDet = true := by rw [foldl_keep_g hr]; exact h4
  generalize σ.run.foldl runPass W4 = W5 at h5
  exact rho_foldl (f := waitPass) (fun W n => foldl_keep_g (fun W v => vehUpdate_keep_g W v none) _ _)
    (fun W n h => rho_vehAll _ W h) σ.wait W5 h5

theorem region_keep_g (σ : Sched) (W : CWorld) : (region σ W).g = W.g := by
  simp only [region]
  rw [foldl_keep_g (f := waitPass) (fun W n => foldl_keep_g (fun W v => vehUpdate_keep_g W v none) _ _),
    foldl_keep_g (f := runPass) (fun W l => foldl_keep_g (runVeh_keep_g l) _ _),
    foldl_keep_g (f := followPass) (fun W l => foldl_keep_g carFollow_keep_g _ _),
    foldl_keep_g (f := transfer) (fun W n => transfer_keep_g n W),
    foldl_keep_g (f := nodeStage) (fun W n => nodeStage_g W n), foldl_keep_g (f := linkUpdate) (fun _ _ => rfl)]

theorem rho_reconcile : W.reconcile.rho a b = (W.rho a b).reconcile := by
  unfold reconcile CWorld.rho
  simp only [CWorld.mk.injEq, true_and, and_true]
  refine ⟨funext fun n => ?_, funext fun l => ?_⟩
  · split <;> rfl
  · split <;> rfl

theorem rho_adj (hd : W.g.hardDet = true) : (W.rho a b).adjStep = W.adjStep := by
  have hc : ∀ l, (W.rho a b).linkCost l = W.linkCost l := fun l => by
    unfold linkCost
    have hd' : (W.rho a b).g.hardDet = true := hd
    simp only
    rw [if_pos hd, if_pos hd']
    rfl
  funext acc l
  simp only [adjStep]
  rw [hc]
  rfl

theorem rho_updateAdj (hd : W.g.hardDet = true) : W.updateAdj.rho a b = (W.rho a b).updateAdj := by
  have hd' : (W.rho a b).g.hardDet = true := hd
  simp only [updateAdj]
  rw [rho_adj hd, if_pos hd, if_pos hd']
  rfl

theorem rho_routeStep (hd : W.g.hardDet = true) : W.routeStep.rho a b = (W.rho a b).routeStep := by
  unfold routeStep
  rw [← rho_updateAdj hd]
  show CWorld.rho a b (if W.g.gradual = true then (if 0 < W.g.routeSteps ∧ W.g.timestep % W.g.routeSteps = 0 then _
      else _ : CWorld).duoUpdate _ else if 0 < W.g.routeSteps ∧ W.g.timestep % W.g.routeSteps = 0 then _ else _) =
    if W.g.gradual = true then (if 0 < W.g.routeSteps ∧ W.g.timestep % W.g.routeSteps = 0 then _
      else _ : CWorld).duoUpdate _ else if 0 < W.g.routeSteps ∧ W.g.timestep % W.g.routeSteps = 0 then _ else _
  split
  · split <;> rfl
  · split <;> rfl

theorem rho_firstExc : (W.rho a b).firstExc = W.firstExc := rfl

theorem rho_clearExc : W.clearExc.rho a b = (W.rho a b).clearExc := rfl

theorem rho_stepWith (σ : Sched) (home : List ℕ) (hd : W.g.hardDet = true) :
    CWorld.stepWith σ home (W.rho a b) = ((CWorld.stepWith σ home W).1.rho a b, (CWorld.stepWith σ home W).2) := by
  unfold CWorld.stepWith
  simp only
  have hd0 : W.clearExc.g.hardDet = true := hd
  rw [← rho_clearExc, ← rho_region σ hd0, rho_firstExc]
  have h1 : (region σ W.clearExc).g.hardDet = true := by rw [region_keep_g]; exact hd
  generalize region σ W.clearExc = V at h1
  split
  · rfl
  · rw [← rho_vehAll home V h1, ← rho_reconcile]
    have h2 : (home.foldl (fun (W : CWorld) v => W.vehUpdate v none) V).g.hardDet = true := by
      rw [foldl_keep_g (f := fun (W : CWorld) v => W.vehUpdate v none) (fun W v => vehUpdate_keep_g W v none)]; exact h1
    generalize home.foldl (fun (W : CWorld) v => W.vehUpdate v none) V = X at h2
    rw [← rho_routeStep (show X.reconcile.g.hardDet = true from h2)]

theorem routeStep_hardDet : W.routeStep.g.hardDet = W.g.hardDet := by
  unfold routeStep
  split
  · split <;> rfl
  · split <;> rfl

theorem stepWith_hardDet (σ : Sched) (home : List ℕ) : (CWorld.stepWith σ home W).1.g.hardDet = W.g.hardDet := by
  unfold CWorld.stepWith
  simp only
  have h1 : (region σ W.clearExc).g = W.g := by rw [region_keep_g]; rfl
  generalize region σ W.clearExc = V at h1
  split
  · rw [h1]
  · rw [routeStep_hardDet]
    show (home.foldl (fun (W : CWorld) v => W.vehUpdate v none) V).g.hardDet = _
    rw [foldl_keep_g (f := fun (W : CWorld) v => W.vehUpdate v none) (fun W v => vehUpdate_keep_g W v none), h1]

theorem rho_loopFrom (buckets : ℕ → List ℕ) (k : ℕ) (W : CWorld) (hd : W.g.hardDet = true) :
    CWorld.loopFrom (fun _ W => W.seqSched) buckets k (W.rho a b) =
      ((CWorld.loopFrom (fun _ W => W.seqSched) buckets k W).1.rho a b,
        (CWorld.loopFrom (fun _ W => W.seqSched) buckets k W).2) := by
  induction k generalizing W with
  | zero => rfl
  | succ k ih =>
    rw [CWorld.loopFrom, CWorld.loopFrom]
    have e := rho_stepWith (a := a) (b := b) W.seqSched (buckets W.g.timestep) hd
    have e' : CWorld.stepWith (W.rho a b).seqSched (buckets (W.rho a b).g.timestep) (W.rho a b) = _ := e
    rw [e']
    have h1 := stepWith_hardDet (W := W) W.seqSched (buckets W.g.timestep)
    cases hs : CWorld.stepWith W.seqSched (buckets W.g.timestep) W with
    | mk V o =>
      rw [hs] at h1
      cases o with
      | some e => rfl
      | none => exact ih { V with g := { V.g with timestep := W.g.timestep + 1 } } (show V.g.hardDet = true from h1.trans hd)

theorem rho_bump (dep : ℚ) (k : ℕ) (t : ℤ) : (W.rho a b).bumpStep dep k t = W.bumpStep dep k t := by
  induction k generalizing t with
  | zero => rfl
  | succ k ih =>
    rw [bumpStep, bumpStep, ih]
    rfl

theorem rho_bucket (s : ℕ) : (W.rho a b).bucket s = W.bucket s := by
  funext t
  have h : ∀ q, (W.rho a b).departStep s q = W.departStep s q := fun q => by
    unfold departStep
    rw [rho_bump]
    rfl
  unfold bucket
  simp only [h]
  rfl

theorem rho_mainLoop (W : CWorld) (hd : W.g.hardDet = true) (endTs : ℕ) :
    (W.rho a b).mainLoop (fun _ W => W.seqSched) endTs =
      ((W.mainLoop (fun _ W => W.seqSched) endTs).1.rho a b, (W.mainLoop (fun _ W => W.seqSched) endTs).2) := by
  unfold mainLoop
  rw [rho_bucket]
  exact rho_loopFrom (W.bucket W.g.timestep) (min endTs W.g.totalSteps - W.g.timestep) W hd

end UX.Cpp
