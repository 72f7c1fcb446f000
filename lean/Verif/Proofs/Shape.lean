import Verif.Proofs.Inv

/-! Explicit resulting states of the primitives, with their guards; convenient for case analysis. -/

namespace UX
open World

/-- Route log of `v` after `record_log`. -/
def World.routeLog (W : World) (v : VehId) : List (ℚ × LogEntry) :=
  if W.V.link v = W.V.linkOld v then W.V.logTLink v
  else match W.V.state v, W.V.link v with
    | .run, some l => (W.now, .link l) :: W.V.logTLink v
    | .ended, _ => (W.now, .ended) :: W.V.logTLink v
    | _, _ => W.V.logTLink v

theorem World.recordRow_V (W : World) (v : VehId) (e : Bool) :
    ∃ log s c, W.recordRow v e = { W with avgSpeed := s, avgCount := c, V := { W.V with log := log } } ∧
      log = (if W.logDue e then upd W.V.log v (W.logRow v :: W.V.log v) else W.V.log) := by
  unfold recordRow
  split
  · dsimp only
    split <;> exact ⟨_, _, _, rfl, rfl⟩
  · exact ⟨_, _, _, rfl, rfl⟩

theorem World.recordLog_shape (W : World) (v : VehId) (e : Bool) :
    ∃ log s c, W.recordLog v e = { W with
      avgSpeed := s, avgCount := c
      V := { W.V with log := log, logTLink := upd W.V.logTLink v (W.routeLog v),
                      linkOld := upd W.V.linkOld v (W.V.link v) } } ∧
      log = (if W.logDue e then upd W.V.log v (W.logRow v :: W.V.log v) else W.V.log) := by
  unfold recordLog
  obtain ⟨log, s, c, h, hlog⟩ := recordRow_V W v e
  rw [h]
  refine ⟨log, s, c, ?_, hlog⟩
  unfold recordRoute routeLog
  dsimp only
  split
  · rename_i h1
    rw [upd_eta, h1, upd_eta]
  · congr 1
    congr 1
    cases W.V.state v <;> cases W.V.link v <;> simp only [upd_eta] <;> rfl

/-- Log row written by `end_trip`. -/
def World.endRow (W : World) (v : VehId) : LogRow :=
  { t := W.now, state := if W.V.flagAborted v then .abort else .ended, link := none, x := -1, s := -1,
    v := -1, lane := -1 }

/-- `follower` after `v` got leader `o`. -/
def attachF (f : VehId → Option VehId) (o : Option VehId) (v : VehId) : VehId → Option VehId :=
  match o with | some w => upd f w (some v) | none => f

/-- `leader` after the vehicle with follower `o` left. -/
def detachL (ld : VehId → Option VehId) (o : Option VehId) : VehId → Option VehId :=
  match o with | some f => upd ld f none | none => ld

theorem attachF_apply (f : VehId → Option VehId) (o : Option VehId) (v u : VehId) :
    attachF f o v u = if o = some u then some v else f u := by
  cases o <;> simp [attachF, upd_apply, eq_comm]

theorem detachL_apply (f : VehId → Option VehId) (o : Option VehId) (u : VehId) :
    detachL f o u = if o = some u then none else f u := by
  cases o <;> simp [detachL, upd_apply, eq_comm]

inductive Shape : Act → World → World → Prop
  | linkTick {W : World} {l co ci q} (hl : l < W.nLinks)
      (hco : co = (if W.L.capOutRem l < W.dn * W.L.lanes l
          then W.fl (W.L.capOutRem l + W.fl (W.L.capOut l * W.dt)) else W.L.capOutRem l))
      (hci : ci = (if W.L.capInRem l < W.dn * W.L.lanes l
          then W.fl (W.L.capInRem l + W.fl (W.L.capIn l * W.dt)) else W.L.capInRem l))
      (hq : (W.refillCaps l).newTtInstant l = .ok q) :
      Shape (.linkTick l) W { W with L := { W.L with
        capOutRem := upd W.L.capOutRem l co
        capInRem := upd W.L.capInRem l ci
        ttInstant := upd W.L.ttInstant l (q :: W.L.ttInstant l)
        cumArr := upd W.L.cumArr l (pushCum (W.L.cumArr l))
        cumDep := upd W.L.cumDep l (pushCum (W.L.cumDep l)) } }
  | nodeTick {W : World} {n ph st sl fc} (hn : n < W.nNodes)
      (hsig : W.signalControl n =
        .ok { W with N := { W.N with phase := ph, signalT := st, signalLog := sl } })
      (hph : ∀ m, m ≠ n → ph m = W.N.phase m)
      (hfc : fc = upd W.N.flowCapRem n (match (generalizing := false) W.N.flowCap n with
        | some c => if W.N.flowCapRem n < W.dn * (W.N.lanes n).getD 0
            then W.fl (W.N.flowCapRem n + W.fl (c * W.dt)) else W.N.flowCapRem n
        | none => 100000000000)) :
      Shape (.nodeTick n) W { W with N := { W.N with
        phase := ph, signalT := st, signalLog := sl, flowCapRem := fc } }
  | depart {W : World} {n v t cs l o} (hn : n < W.nNodes) (hq : W.N.genq n = v :: t)
      (hcs : W.originCandidates v n = .ok cs) (hl : l ∈ cs) (hout : l ∈ W.N.outlinks n)
      (hent : W.canEnter l = true) (hcum : W.L.cumArr l ≠ []) (hlead : W.LeaderOf l o) :
      Shape (.depart n v l) W { W with
        running := W.running ++ [v]
        trace := .depart W.T v n l :: W.trace
        N := { W.N with genq := upd W.N.genq n t }
        L := { W.L with
          vehs := upd W.L.vehs l (W.L.vehs l ++ [v])
          enterLog := upd W.L.enterLog l (dictSet (W.L.enterLog l) W.now v)
          cumArr := upd W.L.cumArr l (bumpHead W.dn (W.L.cumArr l))
          capInRem := upd W.L.capInRem l (W.fl (W.L.capInRem l - W.dn)) }
        V := { W.V with
          state := upd W.V.state v .run
          link := upd W.V.link v (some l)
          x := upd W.V.x v 0
          v := upd W.V.v v (W.L.u l)
          lane := upd W.V.lane v (W.newLane l)
          leader := upd W.V.leader v o
          follower := attachF W.V.follower o v
          linkArrTime := upd W.V.linkArrTime v W.now } }
  | move {W : World} {n v a b t o q nl fc tta} (hn : n < W.nNodes) (hinc : v ∈ W.N.incoming n)
      (hla : W.V.link v = some a) (hv : W.L.vehs a = v :: t) (hr : W.V.rnl v = .to b)
      (hsig : W.N.phase n ∈ W.L.signalGroup a ∨ (W.N.signal n).length ≤ 1)
      (hout : (W.dn : ℚ) ≤ W.L.capOutRem a) (hfl : (W.dn : ℚ) ≤ W.N.flowCapRem n)
      (hent : W.canEnter b = true) (hcd : W.L.cumDep a ≠ []) (hca : W.L.cumArr b ≠ [])
      (hu : W.L.u a ≠ 0)
      (hlead : (o = none ∧ (upd W.L.vehs a t b).length < W.L.lanes b) ∨
        ∃ w, o = some w ∧ W.L.lanes b ≤ (upd W.L.vehs a t b).length ∧
          backN (upd W.L.vehs a t b) (W.L.lanes b) = some w)
      (hnl : nl = (match (generalizing := false) (upd W.L.vehs a t b).getLast? with
        | some w => (W.V.lane w + 1) % W.L.lanes b
        | none => 0))
      (hq : q = ((W.leaveLink n v a b).attachTo v b o).carryOver v a b)
      (hfc : fc = (match (generalizing := false) W.N.flowCap n with
        | some _ => upd W.N.flowCapRem n (W.fl (W.N.flowCapRem n - W.dn))
        | none => W.N.flowCapRem))
      (htta : tta = upd W.L.ttActual a
        (sliceFrom (W.L.ttActual a) (pyInt (W.fl (W.V.linkArrTime v / W.dt)))
          (W.fl (W.now - W.V.linkArrTime v)))) :
      Shape (.move n v a b) W { W with
        trace := .pass W.T v n a b (W.N.phase n) :: W.trace
        L := { W.L with
          cumDep := upd W.L.cumDep a (bumpHead W.dn (W.L.cumDep a))
          cumArr := upd W.L.cumArr b (bumpHead W.dn (W.L.cumArr b))
          ttActual := tta
          capOutRem := upd W.L.capOutRem a (W.fl (W.L.capOutRem a - W.dn))
          capInRem := upd W.L.capInRem b (W.fl (W.L.capInRem b - W.dn))
          vehs := upd (upd W.L.vehs a t) b (upd W.L.vehs a t b ++ [v])
          enterLog := upd W.L.enterLog b (dictSet (W.L.enterLog b) W.now v) }
        N := { W.N with
          flowCapRem := fc
          incoming := upd W.N.incoming n ((W.N.incoming n).erase v) }
        V := { W.V with
          linkArrTime := upd W.V.linkArrTime v W.now
          link := upd W.V.link v (some b)
          x := upd W.V.x v q
          v := upd W.V.v v (W.fl (W.V.v v + W.fl (q / W.dt)))
          moveRemain := upd W.V.moveRemain v 0
          lane := upd W.V.lane v nl
          leader := upd (detachL W.V.leader (W.V.follower v)) v o
          follower := attachF (upd W.V.follower v none) o v } }
  | endTrip {W : World} {v l t log s c lt tta} (hl : W.V.link v = some l)
      (hv : W.L.vehs l = v :: t) (hf : W.V.flagEnd v = true) (hcd : W.L.cumDep l ≠ [])
      (hrun : v ∈ W.running) (hliv : v ∈ W.living)
      (hlt : lt = (if W.V.linkOld v = none ∨ W.V.flagAborted v = true then W.V.logTLink v
        else (W.now, .ended) :: W.V.logTLink v))
      (hlog : log = (if W.logDue true then
        upd W.V.log v (W.endRow v :: W.V.log v) else W.V.log))
      (htta : tta = upd W.L.ttActual l
        (sliceFrom (W.L.ttActual l) (pyInt (W.fl (W.V.linkArrTime v / W.dt)))
          (W.fl (W.fl ((W.T + 1 : ℕ) * W.dt) - W.V.linkArrTime v)))) :
      Shape (.endTrip v l) W { W with
        running := W.running.erase v
        living := W.living.erase v
        avgSpeed := s
        avgCount := c
        trace := .finish W.T v l (W.V.flagAborted v) :: W.trace
        L := { W.L with
          cumDep := upd W.L.cumDep l (bumpHead W.dn (W.L.cumDep l))
          ttActual := tta
          vehs := upd W.L.vehs l t }
        V := { W.V with
          state := upd W.V.state v (if W.V.flagAborted v then .abort else .ended)
          leader := detachL W.V.leader (W.V.follower v)
          link := upd W.V.link v none
          x := upd W.V.x v 0
          arrTime := upd W.V.arrTime v (if W.V.flagAborted v then -1 else W.T)
          travelTime := upd W.V.travelTime v
            (if W.V.flagAborted v then -1 else W.fl ((W.T - W.V.depTime v : ℤ) * W.dt))
          log := log
          logTLink := upd W.V.logTLink v lt
          linkOld := upd W.V.linkOld v none } }
  | clearInc {W : World} {n} (hn : n < W.nNodes) :
      Shape (.clearInc n) W { W with N := { W.N with incoming := upd W.N.incoming n [] } }
  | carfollow {W : World} {v l mr xn} (hrun : v ∈ W.running) (hl : W.V.link v = some l)
      (hx : (W.L.length l < W.followPos v l ∧ xn = W.L.length l ∧
          mr = W.fl (W.followPos v l - W.L.length l)) ∨
       (W.followPos v l ≤ W.L.length l ∧ xn = W.followPos v l ∧ mr = W.V.moveRemain v)) :
      Shape (.carfollow v) W { W with V := { W.V with
        moveRemain := upd W.V.moveRemain v mr, xNext := upd W.V.xNext v xn } }
  | record {W : World} {v log s c lt} (hliv : v ∈ W.living)
      (hlt : lt = (if W.V.state v = .run ∧ W.V.link v ≠ W.V.linkOld v then
        (match (generalizing := false) W.V.link v with
          | some l => (W.now, .link l) :: W.V.logTLink v | none => W.V.logTLink v)
        else W.V.logTLink v))
      (hlog : log = (if W.logDue false then upd W.V.log v (W.logRow v :: W.V.log v) else W.V.log)) :
      Shape (.record v) W { W with
        avgSpeed := s
        avgCount := c
        V := { W.V with log := log, logTLink := upd W.V.logTLink v lt,
                        linkOld := upd W.V.linkOld v (W.V.link v) } }
  | startWait {W : World} {v} (hliv : v ∈ W.living) (hs : W.V.state v = .home)
      (hd : W.V.depTime v ≤ W.T) :
      Shape (.startWait v) W { W with
        trace := .queue W.T v (W.V.orig v) :: W.trace
        V := { W.V with state := upd W.V.state v .wait }
        N := { W.N with genq := upd W.N.genq (W.V.orig v) (W.N.genq (W.V.orig v) ++ [v]) } }
  | noWait {W : World} {v} (hliv : v ∈ W.living) (hs : ¬ (W.V.state v = .home ∧ W.V.depTime v ≤ W.T)) :
      Shape (.startWait v) W W
  | advance {W : World} {v} (hs : W.V.state v = .run) (hlo : W.V.linkOld v = W.V.link v)
      (hinc : ∀ n, v ∉ W.N.incoming n) :
      Shape (.advance v) W { W with V := { W.V with
        v := upd W.V.v v (W.fl (W.fl (W.V.xNext v - W.V.x v) / W.dt))
        xOld := upd W.V.xOld v (W.V.x v)
        x := upd W.V.x v (W.V.xNext v)
        dist := upd W.V.dist v (W.fl (W.V.dist v + W.fl (W.V.xNext v - W.V.x v))) } }
  | routing {W : World} {rng R pref} : Shape .routing W
      { W with rng := rng, R := R, V := { W.V with pref := pref } }
  | event {W : World} {v a e rng R H dest destList nodeEvent pref} (ha : AtEnd W v a)
      (he : W.V.nodeEvent v (W.L.endN a) = some e)
      (hr : W.runEvent e = .ok { W with
           rng := rng, R := R, H := H
           V := { W.V with dest := dest, destList := destList, nodeEvent := nodeEvent, pref := pref } })
      (hd : ∀ v, W.V.mode v = .single → dest v = W.V.dest v) :
      Shape (.event v) W { W with
           rng := rng, R := R, H := H
           V := { W.V with dest := dest, destList := destList, nodeEvent := nodeEvent, pref := pref } }
  | nextDest {W : World} {v a d dl} (ha : AtEnd W v a) (hd : W.V.dest v = some (W.L.endN a))
      (hm : W.V.mode v = .taxi)
      (hdl : (W.V.destList v = [] ∧ d = none ∧ dl = []) ∨ ∃ k, W.V.destList v = k :: dl ∧ d = some k) :
      Shape (.nextDest v) W { W with V := { W.V with
        dest := upd W.V.dest v d, destList := upd W.V.destList v dl } }
  | flagEnd {W : World} {v a} (ha : AtEnd W v a) (hd : W.V.dest v = some (W.L.endN a))
      (hm : W.V.mode v = .single) :
      Shape (.flagEnd v) W { W with V := { W.V with flagEnd := upd W.V.flagEnd v true } }
  | flagAbort {W : World} {v a} (ha : AtEnd W v a) (hd : W.V.dest v ≠ some (W.L.endN a))
      (ho : W.N.outlinks (W.L.endN a) = []) (ht : W.V.tripAbort v = true) :
      Shape (.flagAbort v) W { W with V := { W.V with
        flagAborted := upd W.V.flagAborted v true
        rnl := upd W.V.rnl v .none
        flagEnd := upd W.V.flagEnd v true } }
  | choose {W : World} {v a r rnl} (ha : AtEnd W v a)
      (hd : W.V.dest v = some (W.L.endN a) → W.V.mode v = .taxi)
      (ho : W.V.mode v = .single → W.V.tripAbort v = true → W.N.outlinks (W.L.endN a) ≠ [])
      (hr : (rnl = W.V.rnl v ∧ W.V.dest v = some (W.L.endN a) ∧ W.V.specRoute v = none) ∨
       (rnl = .none ∧ W.N.outlinks (W.L.endN a) = []) ∨
       (∃ b, rnl = .to b ∧ b ∈ W.nextCandidates v (W.L.endN a) ∧ b ∈ W.N.outlinks (W.L.endN a) ∧
          W.V.specRoute v = none) ∨
       (∃ b route, rnl = .to b ∧ b ∈ W.N.outlinks (W.L.endN a) ∧ W.V.specRoute v = some route ∧
          route[(W.V.logTLink v).length - 1]? = some b)) :
      Shape (.choose v) W { W with rng := r, V := { W.V with rnl := upd W.V.rnl v rnl } }
  | pushInc {W : World} {v a n} (ha : AtEnd W v a) (hne : n = W.L.endN a)
      (hg : W.V.mode v = .single →
        W.V.dest v ≠ some (W.L.endN a) ∧ (W.V.tripAbort v = true → W.N.outlinks (W.L.endN a) ≠ []) ∧
        (W.V.rnl v = .none ∨ ∃ b ∈ W.N.outlinks (W.L.endN a), W.V.rnl v = .to b))
      (hch : Chosen W v n) :
      Shape (.pushInc n v) W { W with N := { W.N with
        incoming := upd W.N.incoming n (W.N.incoming n ++ [v]) } }

theorem Prim.shape {act : Act} {W W' : World} (hS : SInv W) (h : Prim act W W') : Shape act W W' := by
  cases h with
  | @linkTick _ _ l hl h =>
    unfold linkUpdate at h
    dsimp only at h
    split at h
    · simp at h
    · rename_i q hq
      simp only [Except.ok.injEq] at h
      subst h
      exact .linkTick hl rfl rfl hq
  | @nodeTick _ _ n hn h =>
    unfold nodeUpdate at h
    split at h
    · simp at h
    · rename_i W1 h1
      simp only [Except.ok.injEq] at h
      obtain ⟨ph, st, sl, hW1⟩ := signalControl_ok h1
      have hph : ∀ m, m ≠ n → ph m = W.N.phase m := by
        intro m hm
        have h2 := h1
        unfold signalControl at h2
        split at h2
        · simp at h2
        · simp only [Except.ok.injEq] at h2
          have h3 : W1.N.phase m = W.N.phase m := by
            rw [← h2]; simp only [upd_apply, if_neg hm]
          rw [hW1] at h3; exact h3
      subst hW1
      subst h
      have : World.flowCapUpdate { W with N := { W.N with phase := ph, signalT := st, signalLog := sl } } n =
          { W with N := { W.N with phase := ph, signalT := st, signalLog := sl
                                   flowCapRem := upd W.N.flowCapRem n (match W.N.flowCap n with
        | some c => if W.N.flowCapRem n < W.dn * (W.N.lanes n).getD 0
            then W.fl (W.N.flowCapRem n + W.fl (c * W.dt)) else W.N.flowCapRem n
        | none => 100000000000) } } := by
        unfold flowCapUpdate
        dsimp only
        cases W.N.flowCap n with
        | none => rfl
        | some c =>
          dsimp only
          split
          · rename_i hc
            have hc' : W.N.flowCapRem n < W.dn * (W.N.lanes n).getD 0 := hc
            rw [if_pos hc']; rfl
          · rename_i hc
            have hc' : ¬ W.N.flowCapRem n < W.dn * (W.N.lanes n).getD 0 := hc
            rw [if_neg hc', upd_eta]
      rw [this]
      exact .nodeTick hn h1 hph rfl
  | @depart _ _ n v t cs l hn hq hcs hl hent h =>
    obtain ⟨hcum, o, ho, rfl⟩ := depart_ok h
    have := Shape.depart hn hq hcs hl (SInv.mem_originCandidates hcs hl) hent hcum ho
    unfold departRes
    rw [show (W.N.genq n).tail = t by rw [hq]; rfl]
    exact this
  | @move _ _ n v a b t hn hinc hla hv hr hsig hout hfl hent h =>
    obtain ⟨hcd, hca, hu, o, ho, rfl⟩ := moveCore_ok h
    have htail : (W.L.vehs a).tail = t := by rw [hv]; rfl
    have ho' : (o = none ∧ (upd W.L.vehs a t b).length < W.L.lanes b) ∨
        ∃ w, o = some w ∧ W.L.lanes b ≤ (upd W.L.vehs a t b).length ∧
          backN (upd W.L.vehs a t b) (W.L.lanes b) = some w := by
      rw [← htail]; exact ho
    generalize hq : ((W.leaveLink n v a b).attachTo v b o).carryOver v a b = q
    have := Shape.move hn hinc hla hv hr hsig hout hfl hent hcd hca hu ho' rfl hq.symm rfl rfl
    refine Eq.mp ?_ this
    congr 1
    clear this hq
    unfold moveRes leaveLink attachTo placeOn newLane
    dsimp only
    rw [htail]
    congr 1
    congr 1
    · rw [upd_upd]
    · funext u
      rw [attachF_apply]
      have hfo : (match W.V.follower v with
        | some _ => upd W.V.follower v none
        | none => W.V.follower) = upd W.V.follower v none := by
        split
        · rfl
        · rename_i hn; rw [← hn, upd_eta]
      cases o with
      | none => simp only [reduceCtorEq, if_false]; exact (congrFun hfo u).symm
      | some w =>
        simp only [Option.some.injEq]
        by_cases hw : u = w
        · subst hw; simp
        · rw [if_neg (fun h => hw h.symm), upd_ne _ _ hw]; exact (congrFun hfo u).symm
  | @endTrip _ _ v l t hl hv hf h =>
    obtain ⟨l', hl', hcd, -, h1, h2, rfl⟩ := endTrip_ok h
    obtain rfl : l = l' := by rw [hl] at hl'; simpa using hl'
    obtain ⟨log, s, c, hr, hlog⟩ := recordLog_shape (W.endTripCore v l) v true
    rw [hr]
    have hlog' : log = (if W.logDue true then
        upd W.V.log v (W.endRow v :: W.V.log v) else W.V.log) := by
      rw [hlog]
      have e1 : (W.endTripCore v l).logDue true = W.logDue true := rfl
      have e2 : (W.endTripCore v l).V.log = W.V.log := rfl
      rw [e1, e2]
      have e3 : (W.endTripCore v l).logRow v = W.endRow v := by
        unfold logRow
        have : (W.endTripCore v l).V.state v = (if W.V.flagAborted v then .abort else .ended) := by
          simp [endTripCore]
        rw [this]
        unfold endRow
        cases W.V.flagAborted v <;> rfl
      rw [e3]
    have hlt : (W.endTripCore v l).routeLog v =
        (if W.V.linkOld v = none ∨ W.V.flagAborted v = true then W.V.logTLink v
        else (W.now, .ended) :: W.V.logTLink v) := by
      unfold routeLog
      have h1 : (W.endTripCore v l).V.link v = none := by simp [endTripCore]
      have h2 : (W.endTripCore v l).V.linkOld v = W.V.linkOld v := rfl
      have h3 : (W.endTripCore v l).V.logTLink v = W.V.logTLink v := rfl
      have h4 : (W.endTripCore v l).now = W.now := rfl
      have h5 : (W.endTripCore v l).V.state v = (if W.V.flagAborted v then .abort else .ended) := by
        simp [endTripCore]
      rw [h1, h2, h3, h4, h5]
      cases W.V.flagAborted v <;> cases W.V.linkOld v <;> simp
    have := Shape.endTrip (s := s) (c := c) hl hv hf hcd h1 h2 hlt hlog' rfl
    unfold endTripCore at this ⊢
    dsimp only at this ⊢
    rw [show (W.L.vehs l).tail = t by rw [hv]; rfl] at this ⊢
    rw [show upd W.V.link v none v = none by simp]
    exact this
  | clearInc hn => exact .clearInc hn
  | @carfollow _ _ v hrun h =>
    obtain ⟨l, mr, xn, hl, rfl, hx⟩ := carfollow_ok h
    rcases hx with ⟨h1, h2, rfl⟩ | ⟨h1, h2, rfl⟩
    · exact .carfollow hrun hl (.inl ⟨h1, h2, rfl⟩)
    · have := Shape.carfollow hrun hl (.inr ⟨h1, h2, rfl⟩)
      rwa [upd_eta] at this
  | @record _ v hliv =>
    obtain ⟨log, s, c, hr, hlog⟩ := recordLog_shape W v false
    rw [hr]
    have hlt : W.routeLog v = (if W.V.state v = .run ∧ W.V.link v ≠ W.V.linkOld v then
        (match W.V.link v with | some l => (W.now, .link l) :: W.V.logTLink v | none => W.V.logTLink v)
        else W.V.logTLink v) := by
      unfold routeLog
      have hne := ((hS.living_iff v).mp hliv).2.1
      by_cases h : W.V.link v = W.V.linkOld v
      · simp [h]
      · rw [if_neg h]
        cases hs : W.V.state v <;> simp [hs] at hne ⊢
        simp only [h, not_false_eq_true, if_true]
        cases W.V.link v <;> rfl
    exact .record hliv hlt hlog
  | @startWait _ v hliv =>
    unfold World.startWait
    split
    · rename_i hc; exact .startWait hliv hc.1 hc.2
    · rename_i hc; exact .noWait hliv hc
  | advance hs hlo hinc => exact .advance hs hlo hinc
  | routing => exact .routing
  | event ha he h =>
    obtain ⟨_, _, _, _, _, _, _, hW, hd⟩ := runEvent_soft h
    subst hW
    exact .event ha he h hd
  | @nextDest _ v a ha hd hm =>
    unfold World.nextDest
    split
    · rename_i d ds hds; exact .nextDest ha hd hm (.inr ⟨d, hds, rfl⟩)
    · rename_i hds; exact .nextDest ha hd hm (.inl ⟨hds, rfl, rfl⟩)
  | flagEnd ha hd hm => exact .flagEnd ha hd hm
  | flagAbort ha hd ho ht => exact .flagAbort ha hd ho ht
  | @choose _ _ v a ha h hd ho =>
    obtain ⟨a', r, rnl, hl, rfl, hr⟩ := nextLinkChoice_ok h
    obtain rfl : a = a' := by
      have := ha.2.1; rw [hl] at this; simpa using this.symm
    refine .choose ha hd ho ?_
    rcases hr with hr | hr | ⟨b, h1, h2, h3⟩ | hr
    · exact .inl hr
    · exact .inr (.inl hr)
    · exact .inr (.inr (.inl ⟨b, h1, h2, SInv.mem_nextCandidates h2, h3⟩))
    · exact .inr (.inr (.inr hr))
  | pushInc ha hg hch => exact .pushInc ha rfl hg hch

end UX
