import Verif.Proofs.Prim

/-! Inversion lemmas: what a successful call of each model function returns. -/

namespace UX
namespace World

theorem linkUpdate_ok {W W' : World} {l : LinkId} (h : W.linkUpdate l = .ok W') :
    ∃ q, W' = { W.refillCaps l with L := { (W.refillCaps l).L with
      ttInstant := upd W.L.ttInstant l (q :: W.L.ttInstant l)
      cumArr := upd W.L.cumArr l (pushCum (W.L.cumArr l))
      cumDep := upd W.L.cumDep l (pushCum (W.L.cumDep l)) } } := by
  unfold linkUpdate at h
  dsimp only at h
  split at h
  · simp at h
  · rename_i q hq
    simp only [Except.ok.injEq] at h
    exact ⟨q, h.symm⟩

theorem flowCapUpdate_frame (W : World) (n : NodeId) :
    ∃ fc, W.flowCapUpdate n = { W with N := { W.N with flowCapRem := fc } } := by
  unfold flowCapUpdate
  split
  · split
    · exact ⟨_, rfl⟩
    · exact ⟨_, rfl⟩
  · exact ⟨_, rfl⟩

theorem signalControl_ok {W W' : World} {n : NodeId} (h : W.signalControl n = .ok W') :
    ∃ ph st sl, W' = { W with N := { W.N with phase := ph, signalT := st, signalLog := sl } } := by
  unfold signalControl at h
  split at h
  · simp at h
  · simp only [Except.ok.injEq] at h
    exact ⟨_, _, _, h.symm⟩

theorem nodeUpdate_ok {W W' : World} {n : NodeId} (h : W.nodeUpdate n = .ok W') :
    ∃ ph st sl fc, W' = { W with N := { W.N with
      phase := ph, signalT := st, signalLog := sl, flowCapRem := fc } } := by
  unfold nodeUpdate at h
  split at h
  · simp at h
  · rename_i W1 h1
    simp only [Except.ok.injEq] at h
    obtain ⟨ph, st, sl, rfl⟩ := signalControl_ok h1
    obtain ⟨fc, h2⟩ := flowCapUpdate_frame _ n
    rw [h2] at h
    exact ⟨_, _, _, _, h.symm⟩

/-- Result of `attachLeader` when the leader is `o`. -/
def attachTo (W : World) (v : VehId) (l : LinkId) (o : Option VehId) : World :=
  { W with V := { W.V with
    lane := upd W.V.lane v (W.newLane l)
    leader := upd W.V.leader v o
    follower := match o with | some w => upd W.V.follower w (some v) | none => W.V.follower } }

theorem upd_upd {ι α : Type} [DecidableEq ι] (f : ι → α) (i : ι) (a b : α) :
    upd (upd f i a) i b = upd f i b := by
  funext j; by_cases h : j = i <;> simp [upd, h]

theorem attachLeader_ok {W W' : World} {v : VehId} {l : LinkId} (h : W.attachLeader v l = .ok W') :
    ∃ o, W' = W.attachTo v l o ∧
      ((o = none ∧ (W.L.vehs l).length < W.L.lanes l) ∨
       ∃ w, o = some w ∧ W.L.lanes l ≤ (W.L.vehs l).length ∧
        backN (W.L.vehs l) (W.L.lanes l) = some w ∧
        upd W.V.lane v (W.newLane l) w = W.newLane l) := by
  unfold attachLeader at h
  dsimp only at h
  split at h
  · rename_i hlen
    split at h
    · simp at h
    · rename_i w hw
      split at h
      · rename_i hl
        simp only [Except.ok.injEq] at h
        refine ⟨some w, ?_, .inr ⟨w, rfl, hlen, hw, ?_⟩⟩
        · rw [← h]; simp only [attachTo, upd_upd]
        · simpa using hl
      · simp at h
  · rename_i hlen
    simp only [Except.ok.injEq] at h
    exact ⟨none, h.symm, .inl ⟨rfl, by omega⟩⟩

/-- Result of a departure with leader `o`. -/
def departRes (W : World) (n : NodeId) (v : VehId) (l : LinkId) (o : Option VehId) : World :=
  { W with
    running := W.running ++ [v]
    trace := .depart W.T v n l :: W.trace
    N := { W.N with genq := upd W.N.genq n (W.N.genq n).tail }
    L := { W.L with
      vehs := upd W.L.vehs l (W.L.vehs l ++ [v])
      enterLog := upd W.L.enterLog l (dictSet (W.L.enterLog l) W.now v)
      cumArr := upd W.L.cumArr l (bumpHead W.dn (W.L.cumArr l))
      capInRem := upd W.L.capInRem l (W.fl (W.L.capInRem l - W.dn)) }
    V := { W.V with
      state := upd W.V.state v .run
      link := upd W.V.link v (some l)
      x := upd W.V.x v 0
      v := upd W.V.v v (W.L.u l)
      lane := upd W.V.lane v (W.newLane l)
      leader := upd W.V.leader v o
      follower := match o with | some w => upd W.V.follower w (some v) | none => W.V.follower
      linkArrTime := upd W.V.linkArrTime v W.now } }

/-- What a newly entering vehicle's leader `o` is. -/
def LeaderOf (W : World) (l : LinkId) (o : Option VehId) : Prop :=
  (o = none ∧ (W.L.vehs l).length < W.L.lanes l) ∨
    ∃ w, o = some w ∧ W.L.lanes l ≤ (W.L.vehs l).length ∧
      backN (W.L.vehs l) (W.L.lanes l) = some w

theorem depart_ok {W W' : World} {n : NodeId} {v : VehId} {l : LinkId}
    (h : W.depart n v l = .ok W') :
    W.L.cumArr l ≠ [] ∧ ∃ o, W.LeaderOf l o ∧ W' = W.departRes n v l o := by
  unfold depart at h
  dsimp only at h
  split at h
  · rename_i h1; simp [bind, Except.bind, throw, throwThe, MonadExceptOf.throw] at h
  · rename_i h1
    simp only [bind_ok, pure_ok] at h
    obtain ⟨W2, h2, h⟩ := h
    obtain ⟨o, rfl, ho⟩ := attachLeader_ok h2
    refine ⟨h1, o, ?_, ?_⟩
    · rcases ho with ho | ⟨w, h1, h2, h3, _⟩
      · exact .inl ho
      · exact .inr ⟨w, h1, h2, h3⟩
    · rw [← h]; rfl

/-- Result of a transfer with leader `o` and position `q` on the new link. -/
def moveRes (W : World) (n : NodeId) (v : VehId) (a b : LinkId) (o : Option VehId) (q : ℚ) : World :=
  let W3 := ((W.leaveLink n v a b).attachTo v b o).placeOn v q
  { W3 with
    L := { W3.L with vehs := upd W3.L.vehs b (W3.L.vehs b ++ [v]) }
    N := { W3.N with incoming := upd W3.N.incoming n ((W3.N.incoming n).erase v) } }

theorem moveCore_ok {W W' : World} {n : NodeId} {v : VehId} {a b : LinkId}
    (h : W.moveCore n v a b = .ok W') :
    W.L.cumDep a ≠ [] ∧ W.L.cumArr b ≠ [] ∧ W.L.u a ≠ 0 ∧
    ∃ o, (W.leaveLink n v a b).LeaderOf b o ∧
      W' = W.moveRes n v a b o (((W.leaveLink n v a b).attachTo v b o).carryOver v a b) := by
  unfold moveCore at h
  dsimp only at h
  split at h
  · simp [bind, Except.bind, throw, throwThe, MonadExceptOf.throw] at h
  · rename_i h1
    split at h
    · simp [bind, Except.bind, throw, throwThe, MonadExceptOf.throw] at h
    · rename_i h2
      simp only [bind_ok, pure_ok] at h
      obtain ⟨W2, h3, h⟩ := h
      obtain ⟨o, rfl, ho⟩ := attachLeader_ok h3
      push Not at h1
      refine ⟨h1.1, h1.2, h2, o, ?_, ?_⟩
      · rcases ho with ho | ⟨w, h1, h2, h3, _⟩
        · exact .inl ho
        · exact .inr ⟨w, h1, h2, h3⟩
      · rw [← h]; rfl

theorem recordRow_frame (W : World) (v : VehId) (e : Bool) :
    ∃ log s c, W.recordRow v e = { W with avgSpeed := s, avgCount := c, V := { W.V with log := log } } := by
  unfold recordRow
  split
  · dsimp only
    split <;> exact ⟨_, _, _, rfl⟩
  · exact ⟨_, _, _, rfl⟩

theorem recordRoute_frame (W : World) (v : VehId) :
    ∃ lt lo, W.recordRoute v = { W with V := { W.V with logTLink := lt, linkOld := lo } } := by
  unfold recordRoute
  split
  · exact ⟨_, _, rfl⟩
  · exact ⟨_, _, rfl⟩

theorem recordLog_frame (W : World) (v : VehId) (e : Bool) :
    ∃ log s c lt lo, W.recordLog v e = { W with
      avgSpeed := s, avgCount := c, V := { W.V with log := log, logTLink := lt, linkOld := lo } } := by
  unfold recordLog
  obtain ⟨log, s, c, h⟩ := recordRow_frame W v e
  obtain ⟨lt, lo, h2⟩ := recordRoute_frame (W.recordRow v e) v
  rw [h2, h]
  exact ⟨_, _, _, _, _, rfl⟩

theorem recordLog_linkOld (W : World) (v : VehId) (e : Bool) :
    (W.recordLog v e).V.linkOld = upd W.V.linkOld v (W.V.link v) := by
  unfold recordLog
  obtain ⟨log, s, c, h⟩ := recordRow_frame W v e
  rw [h]
  unfold recordRoute
  dsimp only
  split
  · rename_i h; rw [h]; simp
  · rfl

theorem endTrip_ok {W W' : World} {v : VehId} (h : W.endTrip v = .ok W') :
    ∃ l, W.V.link v = some l ∧ W.L.cumDep l ≠ [] ∧ W.L.vehs l ≠ [] ∧ v ∈ W.running ∧ v ∈ W.living ∧
      W' = (W.endTripCore v l).recordLog v true := by
  unfold endTrip at h
  split at h
  · simp at h
  · rename_i l hl
    split at h
    · simp at h
    · split at h
      · simp at h
      · rename_i h1 h2
        push Not at h1 h2
        simp only [Except.ok.injEq] at h
        exact ⟨l, hl, h1.1, h1.2, h2.1, h2.2, h.symm⟩

theorem carfollow_ok {W W' : World} {v : VehId} (h : W.carfollow v = .ok W') :
    ∃ l mr xn, W.V.link v = some l ∧
      W' = { W with V := { W.V with moveRemain := mr, xNext := upd W.V.xNext v xn } } ∧
      ((W.L.length l < W.followPos v l ∧ xn = W.L.length l ∧
          mr = upd W.V.moveRemain v (W.fl (W.followPos v l - W.L.length l))) ∨
       (W.followPos v l ≤ W.L.length l ∧ xn = W.followPos v l ∧ mr = W.V.moveRemain)) := by
  unfold carfollow at h
  split at h
  · simp at h
  · rename_i l hl
    dsimp only at h
    split at h
    · rename_i hlt
      simp only [Except.ok.injEq] at h
      exact ⟨l, _, _, hl, h.symm, .inl ⟨hlt, rfl, rfl⟩⟩
    · rename_i hlt
      simp only [Except.ok.injEq] at h
      exact ⟨l, _, _, hl, h.symm, .inr ⟨not_lt.mp hlt, rfl, rfl⟩⟩

theorem routePrefUpdate_ok {W W' : World} {v : VehId} {w : ℚ} (h : W.routePrefUpdate v w = .ok W') :
    ∃ pref, W' = { W with V := { W.V with pref := pref } } := by
  unfold routePrefUpdate at h
  repeat' split at h
  all_goals first
    | (simp at h; done)
    | (simp only [Except.ok.injEq] at h; exact ⟨_, h.symm⟩)

theorem addDest_ok {W W' : World} {v : VehId} {d : NodeId} {k : Option ℕ}
    (h : W.addDest v d k = .ok W') :
    W.V.mode v = .taxi ∧ ∃ dest dl pref,
      W' = { W with V := { W.V with
        dest := upd W.V.dest v dest, destList := upd W.V.destList v dl, pref := pref } } := by
  unfold addDest at h
  split at h
  · simp at h
  · rename_i hm
    refine ⟨hm, ?_⟩
    split at h
    · obtain ⟨pref, rfl⟩ := routePrefUpdate_ok h
      exact ⟨some d, W.V.destList v, pref, by simp⟩
    · rename_i d' hd
      dsimp only at h
      simp only [Except.ok.injEq] at h
      subst h
      exact ⟨W.V.dest v, _, W.V.pref, by simp only [upd_eta]; rfl⟩

theorem addDest_soft {W W' : World} {v : VehId} {d : NodeId} {k : Option ℕ}
    (h : W.addDest v d k = .ok W') : Soft W W' := by
  obtain ⟨hm, dest, dl, pref, rfl⟩ := addDest_ok h
  refine ⟨_, _, _, _, _, _, _, rfl, fun u hu => ?_⟩
  rw [upd_apply]
  split
  · rename_i h; subst h; rw [hm] at hu; cases hu
  · rfl

theorem _root_.UX.Soft.refl (W : World) : Soft W W := ⟨_, _, _, _, _, _, _, rfl, fun _ _ => rfl⟩

theorem _root_.UX.Soft.trans {W W1 W2 : World} (h1 : Soft W W1) (h2 : Soft W1 W2) : Soft W W2 := by
  obtain ⟨_, _, _, _, _, _, _, rfl, h1⟩ := h1
  obtain ⟨_, _, _, _, _, _, _, rfl, h2⟩ := h2
  exact ⟨_, _, _, _, _, _, _, rfl, fun v hv => (h2 v hv).trans (h1 v hv)⟩

theorem setEvent_soft (W : World) (v : VehId) (n : NodeId) (e : Option TaxiEvent) :
    Soft W (W.setEvent v n e) := ⟨_, _, _, _, _, _, _, rfl, fun _ _ => rfl⟩

theorem runEvent_soft {W W' : World} {e : TaxiEvent} (h : W.runEvent e = .ok W') : Soft W W' := by
  cases e with
  | getOn r =>
    simp only [runEvent] at h
    split at h
    · simp at h
    · rename_i tv htv
      rw [bind_ok] at h
      obtain ⟨W1, h1, h⟩ := h
      refine (addDest_soft h1).trans ?_
      split at h
      · simp [bind, Except.bind, throw, throwThe, MonadExceptOf.throw] at h
      · simp only [pure_ok] at h
        subst h
        exact ⟨_, _, _, _, _, _, _, rfl, fun _ _ => rfl⟩
  | arrive r =>
    simp only [runEvent] at h
    split at h
    · simp at h
    · split at h
      · simp [bind, Except.bind, throw, throwThe, MonadExceptOf.throw] at h
      · simp only [pure_ok] at h
        subst h
        exact ⟨_, _, _, _, _, _, _, rfl, fun _ _ => rfl⟩

theorem nextDest_frame (W : World) (v : VehId) :
    ∃ d dl, W.nextDest v = { W with V := { W.V with
      dest := upd W.V.dest v d, destList := upd W.V.destList v dl } } := by
  unfold nextDest
  split <;> exact ⟨_, _, rfl⟩

/-- Result of `route_next_link_choice`: the random stream and `route_next_link` change only. -/
theorem nextLinkChoice_ok {W W' : World} {v : VehId} (h : W.nextLinkChoice v = .ok W') :
    ∃ a r rnl, W.V.link v = some a ∧
      W' = { W with rng := r, V := { W.V with rnl := upd W.V.rnl v rnl } } ∧
      ((rnl = W.V.rnl v ∧ W.V.dest v = some (W.L.endN a) ∧ W.V.specRoute v = none) ∨
       (rnl = .none ∧ W.N.outlinks (W.L.endN a) = []) ∨
       (∃ b, rnl = .to b ∧ b ∈ W.nextCandidates v (W.L.endN a) ∧ W.V.specRoute v = none) ∨
       (∃ b route, rnl = .to b ∧ b ∈ W.N.outlinks (W.L.endN a) ∧ W.V.specRoute v = some route ∧
          route[(W.V.logTLink v).length - 1]? = some b)) := by
  unfold nextLinkChoice at h
  split at h
  · simp at h
  · rename_i a ha
    dsimp only at h
    split at h
    · rename_i hs
      split at h
      · rename_i hd
        simp only [Except.ok.injEq] at h
        exact ⟨a, W.rng, W.V.rnl v, ha, by rw [← h]; simp, .inl ⟨rfl, hd, hs⟩⟩
      · split at h
        · rename_i ho
          simp only [Except.ok.injEq] at h
          exact ⟨a, W.rng, .none, ha, h.symm, .inr (.inl ⟨rfl, ho⟩)⟩
        · simp only [bind_ok, pure_ok] at h
          obtain ⟨⟨l, W1⟩, h1, h2⟩ := h
          obtain ⟨hm, r, rfl⟩ := chooseLink_spec h1
          exact ⟨a, r, .to l, ha, h2.symm, .inr (.inr (.inl ⟨l, rfl, hm, hs⟩))⟩
    · rename_i route hs
      split at h
      · rename_i ho
        simp only [Except.ok.injEq] at h
        exact ⟨a, W.rng, .none, ha, h.symm, .inr (.inl ⟨rfl, ho⟩)⟩
      · split at h
        · simp at h
        · rename_i l hl
          split at h
          · rename_i hc
            simp only [Except.ok.injEq] at h
            exact ⟨a, W.rng, .to l, ha, h.symm,
              .inr (.inr (.inr ⟨l, route, rfl, by simpa using hc, hs, hl⟩))⟩
          · simp at h

end World
end UX
