import Verif.Spec.Agree
import Verif.Proofs.Decomp
import Verif.Proofs.CppInvTransfer
import Verif.Props.RouteChoice

/-!
# The rules of the two engines agree (C126)
-/

namespace UX
open Agree Cpp

/-- Close a goal about one vehicle from the agreement of its views before the rule. -/
local macro "veh_view" h:ident : tactic => `(tactic| (
  obtain ⟨h1, h2, h3, h4, h5, h6, h7, h8, h9, h10, h11, h12, h13, h14, h15, h16⟩ := $h
  simp_all [live]))

/-- The same for a node. -/
local macro "node_view" h:ident : tactic => `(tactic| (
  obtain ⟨h1, h2, h3, h4, h5, h6, h7, h8, h9⟩ := $h
  simp_all))

section lemmas
variable {P : World} {C : CWorld}

theorem Agree.Alike.len (h : Alike P C) (l : ℕ) : P.L.length l = (C.link l).len := congrArg LinkView.len (h.link l)
theorem Agree.Alike.lanes (h : Alike P C) (l : ℕ) : P.L.lanes l = (C.link l).lanes := congrArg LinkView.lanes (h.link l)
theorem Agree.Alike.speed (h : Alike P C) (l : ℕ) : P.L.u l = (C.link l).vmax := congrArg LinkView.speed (h.link l)
theorem Agree.Alike.queue (h : Alike P C) (l : ℕ) : P.L.vehs l = (C.link l).vehs := congrArg LinkView.queue (h.link l)
theorem Agree.Alike.spacing (h : Alike P C) (l : ℕ) : P.L.deltaPerLane l = (C.link l).deltaLane := congrArg LinkView.spacing (h.link l)
theorem Agree.Alike.priority (h : Alike P C) (l : ℕ) : P.L.mergePriority l = (C.link l).mergePri := congrArg LinkView.priority (h.link l)
theorem Agree.Alike.group (h : Alike P C) (l : ℕ) : P.L.signalGroup l = (C.link l).group := congrArg LinkView.group (h.link l)
theorem Agree.Alike.capOutLeft (h : Alike P C) (l : ℕ) : P.L.capOutRem l = (C.link l).capOutRem := congrArg LinkView.capOutLeft (h.link l)
theorem Agree.Alike.capInLeft (h : Alike P C) (l : ℕ) : P.L.capInRem l = (C.link l).capInRem := congrArg LinkView.capInLeft (h.link l)
theorem Agree.Alike.capOut (h : Alike P C) (l : ℕ) : P.L.capOut l = (C.link l).capOut := congrArg LinkView.capOut (h.link l)
theorem Agree.Alike.capIn (h : Alike P C) (l : ℕ) : P.L.capIn l = (C.link l).capIn := congrArg LinkView.capIn (h.link l)
theorem Agree.Alike.src (h : Alike P C) (l : ℕ) : P.L.startN l = (C.link l).src := congrArg LinkView.src (h.link l)
theorem Agree.Alike.dst (h : Alike P C) (l : ℕ) : P.L.endN l = (C.link l).dst := congrArg LinkView.dst (h.link l)
theorem Agree.Alike.state (h : Alike P C) (v : ℕ) : P.V.state v = (C.veh v).state := congrArg VehView.state (h.veh v)
theorem Agree.Alike.vlink (h : Alike P C) (v : ℕ) : P.V.link v = (C.veh v).link := congrArg VehView.link (h.veh v)
theorem Agree.Alike.x (h : Alike P C) (v : ℕ) : P.V.x v = (C.veh v).x := congrArg VehView.x (h.veh v)
theorem Agree.Alike.xNext (h : Alike P C) (v : ℕ) : P.V.xNext v = (C.veh v).xNext := congrArg VehView.xNext (h.veh v)
theorem Agree.Alike.xOld (h : Alike P C) (v : ℕ) : P.V.xOld v = (C.veh v).xOld := congrArg VehView.xOld (h.veh v)
theorem Agree.Alike.v (h : Alike P C) (v : ℕ) : P.V.v v = (C.veh v).v := congrArg VehView.v (h.veh v)
theorem Agree.Alike.carry (h : Alike P C) (v : ℕ) : P.V.moveRemain v = (C.veh v).moveRem := congrArg VehView.carry (h.veh v)
theorem Agree.Alike.lane (h : Alike P C) (v : ℕ) : P.V.lane v = (C.veh v).lane := congrArg VehView.lane (h.veh v)
theorem Agree.Alike.leader (h : Alike P C) (v : ℕ) : P.V.leader v = (C.veh v).leader := congrArg VehView.leader (h.veh v)
theorem Agree.Alike.follower (h : Alike P C) (v : ℕ) : P.V.follower v = (C.veh v).follower := congrArg VehView.follower (h.veh v)
theorem Agree.Alike.dist (h : Alike P C) (v : ℕ) : P.V.dist v = (C.veh v).dist := congrArg VehView.dist (h.veh v)
theorem Agree.Alike.aborts (h : Alike P C) (v : ℕ) : P.V.flagAborted v = (C.veh v).flagAbort := congrArg VehView.aborts (h.veh v)
theorem Agree.Alike.mayAbort (h : Alike P C) (v : ℕ) : P.V.tripAbort v = (C.veh v).tripAbort := congrArg VehView.mayAbort (h.veh v)
theorem Agree.Alike.dest (h : Alike P C) (v : ℕ) : P.V.dest v = some (C.veh v).dest := congrArg VehView.dest (h.veh v)
theorem Agree.Alike.entered (h : Alike P C) (v : ℕ) : (P.V.link v).map (fun _ => P.V.linkArrTime v) = (C.veh v).link.map (fun _ => (C.veh v).arrTimeLink) := congrArg VehView.entered (h.veh v)
theorem Agree.Alike.waits (h : Alike P C) (v : ℕ) : (live (P.V.state v) && P.V.flagEnd v) = (live (C.veh v).state && (C.veh v).flagWait) := congrArg VehView.waits (h.veh v)
theorem Agree.Alike.outLinks (h : Alike P C) (n : ℕ) : P.N.outlinks n = (C.node n).outLinks := congrArg NodeView.outLinks (h.node n)
theorem Agree.Alike.inLinks (h : Alike P C) (n : ℕ) : P.N.inlinks n = (C.node n).inLinks := congrArg NodeView.inLinks (h.node n)
theorem Agree.Alike.gen (h : Alike P C) (n : ℕ) : P.N.genq n = (C.node n).genQ := congrArg NodeView.queue (h.node n)
theorem Agree.Alike.plan (h : Alike P C) (n : ℕ) : P.N.signal n = (C.node n).sigInt := congrArg NodeView.plan (h.node n)
theorem Agree.Alike.phase (h : Alike P C) (n : ℕ) : P.N.phase n = (C.node n).sigPhase := congrArg NodeView.phase (h.node n)
theorem Agree.Alike.clock (h : Alike P C) (n : ℕ) : (if 1 < (P.N.signal n).length then P.N.signalT n else 0) = if 1 < (C.node n).sigInt.length then (C.node n).sigT else 0 := congrArg NodeView.clock (h.node n)
theorem Agree.Alike.ncap (h : Alike P C) (n : ℕ) : P.N.flowCap n = if 0 ≤ (C.node n).flowCap then some (C.node n).flowCap else none := congrArg NodeView.cap (h.node n)
theorem Agree.Alike.ncapLeft (h : Alike P C) (n : ℕ) : P.N.flowCapRem n = (C.node n).flowRem := congrArg NodeView.capLeft (h.node n)
theorem Agree.Alike.nlanes (h : Alike P C) (n : ℕ) : (if P.N.flowCap n = none then 0 else (((P.N.lanes n).getD 0 : ℕ) : ℤ)) = if 0 ≤ (C.node n).flowCap then (if 0 < (C.node n).lanes then (C.node n).lanes else 1) else 0 := congrArg NodeView.lanes (h.node n)
theorem Agree.Alike.gap (h : Alike P C) (l : ℕ) : P.gap l = C.gap l := by
  simp [World.gap, CWorld.gap, World.fl, World.dn, h.fl, h.dn, h.spacing]
theorem Agree.Alike.now (h : Alike P C) : P.now = C.now := by
  simp [World.now, CWorld.now, World.fl, World.dt, h.fl, h.dt, h.time]

/-! ### Frame lemmas: what does not change the views -/

theorem alike_recordLog (h : Alike P C) (v : ℕ) (e : Bool) : Alike (P.recordLog v e) C := by
  have h1 : Alike (P.recordRow v e) C := by
    unfold World.recordRow
    split
    · dsimp only; split <;> exact ⟨h.fl, h.dt, h.dn, h.time, h.det, h.link, h.veh, h.node⟩
    · exact h
  unfold World.recordLog World.recordRoute
  split
  · exact h1
  · exact ⟨h1.fl, h1.dt, h1.dn, h1.time, h1.det, h1.link, h1.veh, h1.node⟩

theorem alike_setV_same (h : Alike P C) (v : ℕ) (f : CVeh → CVeh)
    (hf : cVeh (f (C.veh v)) = cVeh (C.veh v)) : Alike P (C.setV v f) := by
  refine ⟨h.fl, h.dt, h.dn, h.time, h.det, h.link, fun w => ?_, h.node⟩
  simp only [CWorld.setV, upd]
  split
  · next e => subst e; rw [hf]; exact h.veh w
  · exact h.veh w

theorem alike_setL_same (h : Alike P C) (v : ℕ) (f : CLink → CLink)
    (hf : cLink (f (C.link v)) = cLink (C.link v)) : Alike P (C.setL v f) := by
  refine ⟨h.fl, h.dt, h.dn, h.time, h.det, fun w => ?_, h.veh, h.node⟩
  simp only [CWorld.setL, upd]
  split
  · next e => subst e; rw [hf]; exact h.link w
  · exact h.link w

theorem alike_setN_same (h : Alike P C) (v : ℕ) (f : CNode → CNode)
    (hf : cNode (f (C.node v)) = cNode (C.node v)) : Alike P (C.setN v f) := by
  refine ⟨h.fl, h.dt, h.dn, h.time, h.det, h.link, h.veh, fun w => ?_⟩
  simp only [CWorld.setN, upd]
  split
  · next e => subst e; rw [hf]; exact h.node w
  · exact h.node w

theorem alike_logData (h : Alike P C) (v : ℕ) (s : Option ℕ) : Alike P (C.logData v s) := by
  have h1 : Alike P (C.logStats v) := by
    unfold CWorld.logStats
    split
    · exact alike_setL_same h _ _ rfl
    · exact alike_setN_same h _ _ rfl
    · exact h
  unfold CWorld.logData CWorld.logPush
  split
  · exact alike_setV_same h1 _ _ rfl
  · exact h1

/-! ### Single rules -/

/-- The condition for entering a link is the same. -/
theorem C126_enter (h : Alike P C) (l : ℕ) (hl : 0 < P.L.lanes l) :
    P.canEnter l = C.canEnter l := by
  unfold World.canEnter CWorld.canEnter backN
  have hl' : 1 ≤ (C.link l).lanes := by rw [← h.lanes]; exact hl
  simp only [h.queue, h.lanes, h.capInLeft, h.gap, h.dn, World.dn, hl', true_and, ← not_le,
    decide_not, Bool.not_not]
  congr 1
  by_cases hq : (C.link l).lanes ≤ (C.link l).vehs.length
  · rw [if_pos hq]
    congr 1
    cases (C.link l).vehs[(C.link l).vehs.length - (C.link l).lanes]? with
    | none => rfl
    | some w => simp [h.x]
  · simp [hq]

/-- Both engines move a vehicle inside its link in the same way. -/
theorem C126_drive (h : Alike P C) (v : ℕ) : Alike (P.advance v) (C.advance v) := by
  refine ⟨h.fl, h.dt, h.dn, h.time, h.det, h.link, fun w => ?_, h.node⟩
  have hw := h.veh w
  by_cases e : w = v
  · subst e
    simp only [pVeh, cVeh, VehView.mk.injEq, World.advance, CWorld.advance, CWorld.setV, upd,
      if_true, World.fl, World.dt, h.fl, h.dt] at hw ⊢
    veh_view hw
  · simpa [World.advance, CWorld.advance, CWorld.setV, upd, pVeh, e] using hw

/-- Both engines compute the same next position and the same movement left over. The C++ engine in
addition never lets a vehicle move backwards; with a nonnegative speed this changes nothing. -/
theorem C126_follow (h : Alike P C) (hf : FlOK P.cfg.fl) (v l : ℕ) (P' : World)
    (hv : P.V.link v = some l) (hx : P.cfg.fl (P.V.x v) = P.V.x v) (hu : 0 ≤ P.L.u l * P.dt)
    (hp : P.carfollow v = .ok P') : Alike P' (C.carFollow v) := by
  have hpos : P.followPos v l = C.followPos v l := by
    have h0 : P.V.x v ≤ P.cfg.fl (P.V.x v + P.cfg.fl (P.L.u l * P.dt)) := by
      have : P.cfg.fl 0 ≤ P.cfg.fl (P.L.u l * P.dt) := hf.mono hu
      rw [hf.zero] at this
      calc P.V.x v = P.cfg.fl (P.V.x v) := hx.symm
        _ ≤ _ := hf.mono (by linarith)
    unfold World.followPos CWorld.followPos
    simp only [World.fl, World.dt, h.x, h.speed, h.leader, h.fl, h.dt, h.gap] at h0 ⊢
    cases (C.veh v).leader with
    | none => simp only; rw [if_neg (not_lt.mpr h0)]
    | some w =>
      simp only
      have key : ∀ c q : ℚ, (C.veh v).x ≤ q →
          (C.veh v).x ≤ (if (if c < (C.veh v).x then (C.veh v).x else c) < q
            then (if c < (C.veh v).x then (C.veh v).x else c) else q) := by
        intro c q hq
        split_ifs <;> first | exact le_refl _ | assumption | exact not_lt.mp ‹_›
      exact (if_neg (not_lt.mpr (key _ _ h0))).symm
  have hc : (C.veh v).link = some l := by rw [← h.vlink]; exact hv
  unfold World.carfollow at hp
  unfold CWorld.carFollow
  simp only [hv, hc] at hp ⊢
  rw [← hpos, ← h.len]
  split_ifs at hp ⊢ with hh
  all_goals
    cases hp
    refine ⟨h.fl, h.dt, h.dn, h.time, h.det, h.link, fun w => ?_, h.node⟩
    have hw := h.veh w
    by_cases e : w = v
    · subst e
      simp only [pVeh, cVeh, VehView.mk.injEq, CWorld.setV, upd, if_true, World.fl, h.fl] at hw ⊢
      have hl := h.len l
      veh_view hw
    · simpa [CWorld.setV, upd, pVeh, e] using hw

theorem attach_form {P P' : World} {v l : ℕ} (hp : P.attachLeader v l = .ok P') :
    ∃ a b c, P' = { P with V := { P.V with lane := a, leader := b, follower := c } } := by
  unfold World.attachLeader at hp
  dsimp only at hp
  split at hp
  · split at hp
    · cases hp
    · split at hp
      · cases hp; exact ⟨_, _, _, rfl⟩
      · cases hp
  · cases hp; exact ⟨_, _, _, rfl⟩

theorem attach_arr {P P' : World} {v l : ℕ} (f : ℕ → ℚ) (hp : P.attachLeader v l = .ok P') :
    ({ P with V := { P.V with linkArrTime := f } } : World).attachLeader v l =
      .ok { P' with V := { P'.V with linkArrTime := f } } := by
  unfold World.attachLeader at hp ⊢
  dsimp only at hp ⊢
  have hn : ({ P with V := { P.V with linkArrTime := f } } : World).newLane l = P.newLane l := rfl
  rw [hn]
  split_ifs at hp ⊢ with h1
  · cases hb : backN (P.L.vehs l) (P.L.lanes l) with
    | none => rw [hb] at hp; cases hp
    | some u =>
      rw [hb] at hp
      dsimp only at hp ⊢
      split_ifs at hp ⊢ with h2
      cases hp; rfl
  · cases hp; rfl

/-- Lane and leader of an entering vehicle are the same. -/
theorem alike_attach (h : Alike P C) (v l : ℕ) (P' : World) (hl : 0 < P.L.lanes l)
    (hp : P.attachLeader v l = .ok P') : Alike P' (C.attach v l) := by
  unfold World.attachLeader backN at hp
  unfold CWorld.attach
  extract_lets q lane W1
  have hlane : P.newLane l = lane := by
    simp only [lane, q]
    unfold World.newLane
    rw [h.queue, h.lanes]
    split <;> simp_all [h.lane]
  have hl' : 1 ≤ (C.link l).lanes := by rw [← h.lanes]; exact hl
  simp only [h.queue, h.lanes, hl', true_and, hlane] at hp
  have hq0 : q = (C.link l).vehs := rfl
  rw [hq0]
  split_ifs at hp ⊢ with hq
  · cases hb : (C.link l).vehs[(C.link l).vehs.length - (C.link l).lanes]? with
    | none => rw [hb] at hp; cases hp
    | some u =>
      rw [hb] at hp
      dsimp only at hp ⊢
      split at hp
      · cases hp
        refine ⟨h.fl, h.dt, h.dn, h.time, h.det, h.link, fun w => ?_, h.node⟩
        have hw := h.veh w
        by_cases e : w = v <;> by_cases e' : w = u
        all_goals
          simp only [pVeh, cVeh, VehView.mk.injEq, CWorld.setV, upd, W1] at hw ⊢
          veh_view hw
      · cases hp
  · cases hp
    refine ⟨h.fl, h.dt, h.dn, h.time, h.det, h.link, fun w => ?_, h.node⟩
    have hw := h.veh w
    by_cases e : w = v
    all_goals
      simp only [pVeh, cVeh, VehView.mk.injEq, CWorld.setV, upd, W1] at hw ⊢
      veh_view hw

/-- A vehicle that leaves its origin queue changes both worlds in the same way. -/
theorem C126_depart (h : Alike P C) (n v l : ℕ) (P' : World) (hl : 0 < P.L.lanes l)
    (hw : P.V.state v = .wait) (hp : P.depart n v l = .ok P') : Alike P' (C.depart n v l) := by
  unfold World.depart at hp
  by_cases hc : P.L.cumArr l = []
  · simp [hc, bind, Except.bind, throw, throwThe, MonadExceptOf.throw] at hp
  simp only [hc, if_false, bind, Except.bind, pure, Except.pure] at hp
  split at hp
  · cases hp
  · next W2 hW2 =>
    cases hp
    let C2 : CWorld := (C.setN n (fun N => { N with
      genQ := N.genQ.tail, runBuf := N.runBuf ++ [v] })).setV v (fun V => { V with
        state := .run, link := some l, x := 0, v := (C.link l).vmax
        arrTimeLink := C.now
        visited := upd V.visited (C.link l).src true
        count := V.count + 1 })
    have h2 := attach_arr (upd P.V.linkArrTime v P.now) hW2
    obtain ⟨a, b, c, hf⟩ := attach_form hW2
    have hA : Alike { W2 with V := { W2.V with linkArrTime := upd P.V.linkArrTime v P.now } }
        (C2.attach v l) := by
      refine alike_attach ?_ v l _ ?_ h2
      case refine_2 => exact hl
      clear h2 hW2 hf
      refine ⟨h.fl, h.dt, h.dn, h.time, h.det, h.link, fun w => ?_, fun m => ?_⟩
      · have hfl : P.V.flagEnd v = (C.veh v).flagWait := by
          have := h.waits v
          rw [← h.state, hw] at this
          simpa [live] using this
        have hw := h.veh w
        have hs := h.speed l
        have hn := h.now
        by_cases e : w = v
        all_goals
          simp only [pVeh, cVeh, VehView.mk.injEq, CWorld.setV, CWorld.setN, upd, C2] at hw ⊢
          veh_view hw
      · have hm := h.node m
        by_cases e : m = n
        all_goals
          simp only [pNode, cNode, NodeView.mk.injEq, CWorld.setV, CWorld.setN, upd, C2] at hm ⊢
          node_view hm
    clear h2 hW2
    subst hf
    refine ⟨hA.fl, hA.dt, hA.dn, hA.time, hA.det, fun k => ?_, hA.veh, hA.node⟩
    have hk := hA.link k
    by_cases e : k = l
    · subst e
      have := hA.queue k; have := hA.capInLeft k
      simp only [pLink, cLink, LinkView.mk.injEq, CWorld.setL, CWorld.depart, upd, if_true, World.fl, World.dn, h.fl, h.dn] at hk ⊢
      simp_all [C2]
    · simpa [CWorld.depart, CWorld.setL, upd, pLink, e, C2] using hk

/-! ### The end of a trip -/

/-- Both engines take a vehicle off its link in the same way when its trip ends. -/
theorem C126_end (h : Alike P C) (v : ℕ) (P' : World) (hp : P.endTrip v = .ok P') :
    Alike P' (C.endTrip v) := by
  obtain ⟨l, hl, -, -, -, -, rfl⟩ := World.endTrip_ok hp
  have hc : (C.veh v).link = some l := by rw [← h.vlink]; exact hl
  unfold CWorld.endTrip
  simp only [hc]
  unfold CWorld.endTripOn
  extract_lets W1 W2 W3
  refine alike_logData (alike_recordLog ?_ v true) v none
  have hfol : (W1.veh v).follower = P.V.follower v := (h.follower v).symm
  refine ⟨?_, ?_, ?_, ?_, ?_, fun k => ?_, fun w => ?_, fun m => ?_⟩
  · simp only [W3, W2, CWorld.detach]; split <;> exact h.fl
  · simp only [W3, W2, CWorld.detach]; split <;> exact h.dt
  · simp only [W3, W2, CWorld.detach]; split <;> exact h.dn
  · simp only [W3, W2, CWorld.detach]; split <;> exact h.time
  · simp only [W3, W2, CWorld.detach]; split <;> exact h.det
  · have hk := h.link k
    have e0 : W3.link = W1.link := by
      simp only [W3, W2, CWorld.detach]; split <;> rfl
    rw [e0]
    by_cases e : k = l
    · subst e
      have := h.queue k
      simp only [pLink, cLink, LinkView.mk.injEq, CWorld.setL, upd, W1, World.endTripCore] at hk ⊢
      simp_all
    · simpa [pLink, cLink, World.endTripCore, W1, CWorld.setL, upd, e] using hk
  · have hw := h.veh w
    have hab := h.aborts v
    have e0 : W1.veh = C.veh := rfl
    cases hf : P.V.follower v with
    | none =>
      rw [hf] at hfol
      have e2 : W2 = W1 := by simp only [W2, CWorld.detach, hfol]
      have hf' : (C.veh v).follower = none := hfol
      clear hfol hp
      by_cases e : w = v
      · subst e
        simp only [pVeh, cVeh, VehView.mk.injEq, CWorld.setV, upd, W3, e2, e0, World.endTripCore,
          hf] at hw ⊢
        obtain ⟨h1, h2, h3, h4, h5, h6, h7, h8, h9, h10, h11, h12, h13, h14, h15, h16⟩ := hw
        clear h10
        cases hb : (C.veh w).flagAbort <;> simp_all [live]
      · simp only [pVeh, cVeh, VehView.mk.injEq, CWorld.setV, upd, W3, e2, e0, World.endTripCore,
          hf] at hw ⊢
        veh_view hw
    | some f =>
      rw [hf] at hfol
      have e2 : W2 = W1.setV f (fun V => { V with leader := none }) := by
        simp only [W2, CWorld.detach, hfol]
      by_cases e : w = v <;> by_cases e' : w = f
      all_goals
        simp only [pVeh, cVeh, VehView.mk.injEq, CWorld.setV, upd, W3, e2, e0, World.endTripCore,
          hf] at hw ⊢
        cases hb : (C.veh v).flagAbort <;> veh_view hw
  · have e0 : W3.node = C.node := by
      simp only [W3, W2, CWorld.detach]; split <;> rfl
    rw [e0]; exact h.node m

/-! ### The transfer of a vehicle -/

theorem alike_leave (h : Alike P C) (n v a b : ℕ) (hr : P.V.link v ≠ none) :
    Alike (P.leaveLink n v a b) (C.leave n v a b) := by
  unfold CWorld.leave
  extract_lets W1 W2 W3
  have hg : W3.g = C.g := by simp only [W3]; split <;> rfl
  have hv3 : W3.veh = C.veh := by simp only [W3]; split <;> rfl
  have hl3 : W3.link = W2.link := by simp only [W3]; split <;> rfl
  have hd : (W3.detach v).g = C.g ∧ (W3.detach v).link = W2.link ∧
      (W3.detach v).node = W3.node := by
    unfold CWorld.detach; split <;> exact ⟨hg, hl3, rfl⟩
  refine ⟨?_, ?_, ?_, ?_, ?_, fun k => ?_, fun w => ?_, fun m => ?_⟩
  · simp only [CWorld.setV, hd.1]; exact h.fl
  · simp only [CWorld.setV, hd.1]; exact h.dt
  · simp only [CWorld.setV, hd.1]; exact h.dn
  · simp only [CWorld.setV, hd.1]; exact h.time
  · simp only [CWorld.setV, hd.1]; exact h.det
  · have hk := h.link k
    simp only [CWorld.setV, hd.2.1]
    by_cases e : k = a <;> by_cases e' : k = b
    all_goals
      simp only [pLink, cLink, LinkView.mk.injEq, CWorld.setL, upd, W1, W2, World.leaveLink,
        World.fl, World.dn, h.fl, h.dn] at hk ⊢
      simp_all
  · have hw := h.veh w
    have hn := h.now
    have hfol : (W3.veh v).follower = P.V.follower v := by rw [hv3]; exact (h.follower v).symm
    cases hf : P.V.follower v with
    | none =>
      rw [hf] at hfol
      have e2 : W3.detach v = W3 := by simp only [CWorld.detach, hfol]
      rw [e2]
      by_cases e : w = v
      all_goals
        simp only [pVeh, cVeh, VehView.mk.injEq, CWorld.setV, upd, hv3, World.leaveLink, hf] at hw ⊢
        veh_view hw
    | some f =>
      rw [hf] at hfol
      have e2 : W3.detach v = W3.setV f (fun V => { V with leader := none }) := by
        simp only [CWorld.detach, hfol]
      rw [e2]
      by_cases e : w = v <;> by_cases e' : w = f
      all_goals
        simp only [pVeh, cVeh, VehView.mk.injEq, CWorld.setV, upd, hv3, World.leaveLink, hf] at hw ⊢
        veh_view hw
  · have hm := h.node m
    have hcap := h.ncap n
    simp only [CWorld.setV, hd.2.2]
    by_cases hc0 : 0 ≤ (C.node n).flowCap
    · rw [if_pos hc0] at hcap
      have e3 : W3 = W2.setN n (fun N => { N with flowRem := C.g.fl (N.flowRem - C.g.deltaN) }) := by
        simp only [W3, if_pos hc0]
      rw [e3]
      by_cases e : m = n
      all_goals
        simp only [pNode, cNode, NodeView.mk.injEq, CWorld.setN, CWorld.setL, upd, W1, W2,
          World.leaveLink, World.fl, World.dn, h.fl, h.dn, hcap] at hm ⊢
        node_view hm
    · rw [if_neg hc0] at hcap
      have e3 : W3 = W2 := by simp only [W3, if_neg hc0]
      rw [e3]
      simp only [pNode, cNode, NodeView.mk.injEq, CWorld.setL, W1, W2, World.leaveLink, hcap] at hm ⊢
      node_view hm

theorem alike_carry (h : Alike P C) (hf : FlOK P.cfg.fl) (v a b : ℕ)
    (hm : 0 ≤ P.V.moveRemain v) (ha : 0 ≤ P.L.u a) (hb : 0 ≤ P.L.u b) (hl : 0 ≤ P.L.length b)
    (hx : 0 ≤ P.V.x v) : P.carryOver v a b = C.carry v a b := by
  have h0 : 0 ≤ P.cfg.fl (P.cfg.fl (P.V.moveRemain v * P.L.u b) / P.L.u a) := by
    have h1 : 0 ≤ P.cfg.fl (P.V.moveRemain v * P.L.u b) := by
      have := hf.mono (mul_nonneg hm hb); rwa [hf.zero] at this
    have := hf.mono (div_nonneg h1 ha); rwa [hf.zero] at this
  have key : ∀ c q : ℚ, 0 ≤ q → 0 ≤ (if (if c < (C.veh v).x then (C.veh v).x else c) < q
      then (if c < (C.veh v).x then (C.veh v).x else c) else q) := by
    intro c q hq
    rw [h.x] at hx
    split_ifs with h1 <;> first | exact hx | exact hq | exact le_trans hx (not_lt.mp h1)
  have key2 : ∀ q : ℚ, 0 ≤ q → 0 ≤ (if (C.link b).len ≤ q then (C.link b).len else q) := by
    intro q hq
    rw [h.len] at hl
    split_ifs <;> assumption
  unfold World.carryOver CWorld.carry
  simp only [World.fl, h.x, h.speed, h.leader, h.fl, h.gap, h.len, h.carry, h.xOld] at h0 ⊢
  cases (C.veh v).leader with
  | none => exact (if_neg (not_lt.mpr (key2 _ h0))).symm
  | some w => exact (if_neg (not_lt.mpr (key2 _ (key _ _ h0)))).symm

theorem alike_place (h : Alike P C) (v : ℕ) (q : ℚ) : Alike (P.placeOn v q) (C.place v q) := by
  refine ⟨h.fl, h.dt, h.dn, h.time, h.det, h.link, fun w => ?_, h.node⟩
  have hw := h.veh w
  by_cases e : w = v
  all_goals
    simp only [pVeh, cVeh, VehView.mk.injEq, World.placeOn, CWorld.place, CWorld.setV, upd,
      World.fl, World.dt, h.fl, h.dt] at hw ⊢
    veh_view hw

theorem alike_endHead (h : Alike P C) (l : ℕ) (r : World × Bool)
    (hr : ∀ w t, P.L.vehs l = w :: t → P.V.state w = .run) (hp : P.endHead l = .ok r) :
    Alike r.1 (C.endFront l).1 ∧ r.2 = (C.endFront l).2 := by
  unfold World.endHead at hp
  unfold CWorld.endFront
  rw [← h.queue]
  cases hq : P.L.vehs l with
  | nil => rw [hq] at hp; cases hp; exact ⟨h, rfl⟩
  | cons w t =>
    rw [hq] at hp
    have hs := hr w t hq
    have hfl : P.V.flagEnd w = (C.veh w).flagWait := by
      have := h.waits w
      rw [← h.state, hs] at this
      simpa [live] using this
    dsimp only at hp ⊢
    rw [← hfl]
    split_ifs at hp ⊢ with hb
    · rw [map_ok] at hp
      obtain ⟨W1, h1, rfl⟩ := hp
      exact ⟨C126_end h w W1 h1, rfl⟩
    · cases hp; exact ⟨h, rfl⟩

/-! ### What the C++ rules leave alone -/

/-- No request and no list of waiting vehicles changes. -/
def CStill (C C' : CWorld) : Prop :=
  (∀ w, (C'.veh w).next = (C.veh w).next) ∧ (∀ m, (C'.node m).incoming = (C.node m).incoming) ∧
    (∀ l, (C'.link l).arrived = (C.link l).arrived) ∧ (∀ m, (C'.node m).inLinks = (C.node m).inLinks) ∧
    C'.g = C.g

theorem CStill.trans {A B D : CWorld} (h : CStill A B) (k : CStill B D) : CStill A D :=
  ⟨fun w => (k.1 w).trans (h.1 w), fun m => (k.2.1 m).trans (h.2.1 m),
    fun l => (k.2.2.1 l).trans (h.2.2.1 l), fun m => (k.2.2.2.1 m).trans (h.2.2.2.1 m),
    k.2.2.2.2.trans h.2.2.2.2⟩
theorem CStill.refl (A : CWorld) : CStill A A :=
  ⟨fun _ => rfl, fun _ => rfl, fun _ => rfl, fun _ => rfl, rfl⟩

theorem still_setV (C : CWorld) (v : ℕ) (f : CVeh → CVeh) (hf : (f (C.veh v)).next = (C.veh v).next) :
    CStill C (C.setV v f) := by
  refine ⟨fun w => ?_, fun _ => rfl, fun _ => rfl, fun _ => rfl, rfl⟩
  simp only [CWorld.setV, upd]; split
  · next e => subst e; exact hf
  · rfl

theorem still_setN (C : CWorld) (v : ℕ) (f : CNode → CNode)
    (hf : (f (C.node v)).incoming = (C.node v).incoming)
    (hg : (f (C.node v)).inLinks = (C.node v).inLinks) : CStill C (C.setN v f) := by
  refine ⟨fun _ => rfl, fun w => ?_, fun _ => rfl, fun w => ?_, rfl⟩
  all_goals
    simp only [CWorld.setN, upd]; split
    · next e => subst e; first | exact hf | exact hg
    · rfl

theorem still_setL (C : CWorld) (l : ℕ) (f : CLink → CLink)
    (hf : (f (C.link l)).arrived = (C.link l).arrived) : CStill C (C.setL l f) := by
  refine ⟨fun _ => rfl, fun _ => rfl, fun w => ?_, fun _ => rfl, rfl⟩
  simp only [CWorld.setL, upd]; split
  · next e => subst e; exact hf
  · rfl

theorem still_logData (C : CWorld) (v : ℕ) (s : Option ℕ) : CStill C (C.logData v s) := by
  have h1 : CStill C (C.logStats v) := by
    unfold CWorld.logStats
    split
    · exact still_setL _ _ _ rfl
    · exact still_setN _ _ _ rfl rfl
    · exact CStill.refl _
  unfold CWorld.logData CWorld.logPush
  split
  · exact h1.trans (still_setV _ _ _ rfl)
  · exact h1

theorem still_detach (C : CWorld) (v : ℕ) : CStill C (C.detach v) := by
  unfold CWorld.detach
  split
  · exact still_setV _ _ _ rfl
  · exact CStill.refl _

theorem still_endTrip (C : CWorld) (v : ℕ) : CStill C (C.endTrip v) := by
  unfold CWorld.endTrip
  split
  · exact CStill.refl _
  · unfold CWorld.endTripOn
    exact (((still_setL _ _ _ rfl).trans (still_detach _ _)).trans (still_setV _ _ _ rfl)).trans
      (still_logData _ _ _)

theorem still_endFront (C : CWorld) (l : ℕ) : CStill C (C.endFront l).1 := by
  unfold CWorld.endFront
  split
  · exact CStill.refl _
  · split
    · exact still_endTrip _ _
    · exact CStill.refl _

theorem still_leave (C : CWorld) (n v a b : ℕ) : CStill C (C.leave n v a b) := by
  unfold CWorld.leave
  extract_lets W1 W2 W3
  have h2 : CStill C W2 := (still_setL _ _ _ rfl).trans (still_setL _ _ _ rfl)
  have h3 : CStill C W3 := by
    simp only [W3]
    split
    · exact h2.trans (still_setN _ _ _ rfl rfl)
    · exact h2
  exact (h3.trans (still_detach _ _)).trans (still_setV _ _ _ rfl)

theorem still_attach (C : CWorld) (v l : ℕ) : CStill C (C.attach v l) := by
  unfold CWorld.attach
  extract_lets q lane W1
  have h1 : CStill C W1 := still_setV _ _ _ rfl
  split
  · split
    · exact (h1.trans (still_setV _ _ _ rfl)).trans (still_setV _ _ _ rfl)
    · exact h1
  · exact h1

theorem still_place (C : CWorld) (v : ℕ) (q : ℚ) : CStill C (C.place v q) := still_setV _ _ _ rfl

/-! ### One vehicle crosses the node -/

/-- Moving a vehicle to its next link changes both worlds in the same way. -/
theorem alike_move (h : Alike P C) (hc : Core P) (k : Fit P) (n v a b : ℕ) (t : List ℕ) (P' : World)
    (hs : SameWait n P C) (hv : P.V.link v = some a) (hq : P.L.vehs a = v :: t) (hb : b < P.nLinks)
    (hp : P.moveVeh n v a b = .ok P') :
    Alike P' (C.moveVeh n v a b) ∧ SameWait n P' (C.moveVeh n v a b) ∧ Fit P' := by
  obtain ⟨hrun, -, ha⟩ := hc.s.link_run v a hv
  have hvn : v < P.nVeh := by
    by_contra hge
    have := hc.s.fresh v (not_lt.1 hge)
    rw [hrun] at this
    cases this
  unfold World.moveVeh at hp
  by_cases h1 : P.L.cumDep a = [] ∨ P.L.cumArr b = []
  · simp [h1, bind, Except.bind, throw, throwThe, MonadExceptOf.throw] at hp
  by_cases h2 : P.L.u a = 0
  · simp [h1, h2, bind, Except.bind, throw, throwThe, MonadExceptOf.throw, pure, Except.pure] at hp
  simp only [h1, h2, if_false, pure_bind] at hp
  rw [bind_ok] at hp
  obtain ⟨W2, hW2, hp⟩ := hp
  rw [bind_ok] at hp
  obtain ⟨⟨W4, r⟩, hW4, hp⟩ := hp
  simp only [pure_ok] at hp
  have hA1 := alike_leave h n v a b (by rw [hv]; simp)
  have hA2 := alike_attach hA1 v b W2 (hc.s.lanes_pos b hb) hW2
  obtain ⟨la, le, fo, hf⟩ := attach_form hW2
  have hcar : W2.carryOver v a b = ((C.leave n v a b).attach v b).carry v a b := by
    refine alike_carry hA2 ?_ v a b ?_ ?_ ?_ ?_ ?_
    · rw [hf]; exact k.ok
    · rw [hf]; exact k.left v hvn
    · rw [hf]; exact (k.links a ha).1
    · rw [hf]; exact (k.links b hb).1
    · rw [hf]; exact (k.links b hb).2.1
    · rw [hf]; simp [World.leaveLink, upd]
  have hA3 := alike_place hA2 v (W2.carryOver v a b)
  have hA4 := alike_endHead hA3 a (W4, r) (by
    intro w s hw
    have hwt : w ∈ t := by
      rw [hf] at hw
      simp only [World.placeOn, World.leaveLink, upd, if_true, hq, List.tail_cons] at hw
      rw [hw]; simp
    have hl : P.V.link w = some a := hc.s.vehs_link a w (by rw [hq]; exact List.mem_cons_of_mem _ hwt)
    have := (hc.s.link_run w a hl).1
    rw [hf]; exact this) hW4
  have hinc : W4.N.incoming = P.N.incoming ∧ W4.V.rnl = P.V.rnl ∧ W4.cfg = P.cfg ∧
      W4.nLinks = P.nLinks ∧ W4.L.u = P.L.u ∧ W4.L.length = P.L.length ∧
      W4.L.mergePriority = P.L.mergePriority ∧ W4.V.moveRemain = upd P.V.moveRemain v 0 ∧
      W4.nVeh = P.nVeh := by
    unfold World.endHead at hW4
    split at hW4
    · cases hW4; rw [hf]; exact ⟨rfl, rfl, rfl, rfl, rfl, rfl, rfl, rfl, rfl⟩
    · split at hW4
      · rw [map_ok] at hW4
        obtain ⟨W5, h5, h6⟩ := hW4
        cases h6
        obtain ⟨l, -, -, -, -, -, rfl⟩ := World.endTrip_ok h5
        obtain ⟨x1, x2, x3, x4, x5, hx⟩ := World.recordLog_frame
          ((W2.placeOn v (W2.carryOver v a b)).endTripCore _ l) _ true
        rw [hx, hf]
        exact ⟨rfl, rfl, rfl, rfl, rfl, rfl, rfl, rfl, rfl⟩
      · cases hW4; rw [hf]; exact ⟨rfl, rfl, rfl, rfl, rfl, rfl, rfl, rfl, rfl⟩
  have hst : CStill C ((((C.leave n v a b).attach v b).place v (W2.carryOver v a b)).endFront a).1 :=
    (((still_leave C n v a b).trans (still_attach _ v b)).trans (still_place _ v _)).trans
      (still_endFront _ a)
  obtain ⟨i1, i2, i3, i4, i5, i6, i7, i8, i9⟩ := hinc
  have hCm : C.moveVeh n v a b =
      (((((C.leave n v a b).attach v b).place v (W2.carryOver v a b)).endFront a).1.setL b
        (fun L => { L with vehs := L.vehs ++ [v] })).setN n
        (fun N => { N with incoming := N.incoming.filter (· ≠ v) }) := by
    unfold CWorld.moveVeh
    rw [hcar]
  rw [hCm]
  generalize ((((C.leave n v a b).attach v b).place v (W2.carryOver v a b)).endFront a).1 = D at hA4 hst ⊢
  have hA4 : Alike W4 D := hA4.1
  refine ⟨?_, ⟨?_, ?_⟩, ⟨?_, ?_, ?_⟩⟩
  · subst hp
    refine ⟨hA4.fl, hA4.dt, hA4.dn, hA4.time, hA4.det, fun k => ?_, hA4.veh, fun m => ?_⟩
    · have hk := hA4.link k
      by_cases e : k = b
      · subst e
        simp only [pLink, cLink, LinkView.mk.injEq, CWorld.setL, CWorld.setN, upd] at hk ⊢
        simp_all
      · simpa [pLink, cLink, CWorld.setL, CWorld.setN, upd, e] using hk
    · have hm := hA4.node m
      by_cases e : m = n
      · subst e
        simpa [pNode, cNode, CWorld.setL, CWorld.setN, upd] using hm
      · simpa [pNode, cNode, CWorld.setL, CWorld.setN, upd, e] using hm
  · subst hp
    simp only [CWorld.setL, CWorld.setN, upd, if_true, hst.2.1 n, i1, hs.list]
    rw [List.Nodup.erase_eq_filter (hs.list ▸ hc.s.inc_nodup n) v]
    apply List.filter_congr
    intro w _
    by_cases e : w = v <;> simp [e]
  · subst hp
    intro w hw c
    have hw' : w ∈ P.N.incoming n := by
      simp only [upd, if_true, i1] at hw
      exact List.mem_of_mem_erase hw
    have := hs.next w hw' c
    simpa [CWorld.setL, CWorld.setN, i2, hst.1 w] using this
  · subst hp; rw [show ({ W4 with L := _, N := _ } : World).cfg = P.cfg from i3]; exact k.ok
  · subst hp
    intro w hw
    show 0 ≤ W4.V.moveRemain w
    rw [i8]; simp only [upd]; split
    · exact le_refl _
    · exact k.left w (by rw [← i9]; exact hw)
  · subst hp
    intro l hl
    have := k.links l (by rw [← i4]; exact hl)
    show 0 ≤ W4.L.u l ∧ 0 ≤ W4.L.length l ∧ 0 ≤ W4.L.mergePriority l
    rw [i5, i6, i7]; exact this

theorem filterE_eq {α : Type} {p : α → M Bool} {q : α → Bool} : ∀ {l r : List α},
    filterE p l = .ok r → (∀ a ∈ l, ∀ x, p a = .ok x → x = q a) → r = l.filter q
  | [], r, h, _ => by simp [filterE] at h; simp [h]
  | a :: t, r, h, hq => by
    simp only [filterE, bind_ok, pure_ok] at h
    obtain ⟨b, hb, r', hr', rfl⟩ := h
    have hb' := hq a (by simp) b hb
    have ih := filterE_eq hr' (fun x hx => hq x (List.mem_cons_of_mem _ hx))
    rw [List.filter_cons, ← hb', ih]

/-- The same vehicles may move to a link. -/
theorem C126_eligible (h : Alike P C) (n b v : ℕ) (x : Bool) (hs : SameWait n P C)
    (hv : v ∈ P.N.incoming n) (hp : P.eligible n b v = .ok x) : x = C.mayMove n b v := by
  unfold World.eligible at hp
  unfold CWorld.mayMove
  rw [← h.vlink]
  cases hl : P.V.link v with
  | none => rw [hl] at hp; cases hp
  | some a =>
    rw [hl] at hp
    dsimp only at hp ⊢
    have hdn : C.g.deltaN = (P.dn : ℚ) := h.dn
    rw [← h.queue, ← h.capOutLeft, ← h.phase, ← h.group, ← h.plan, hdn]
    have hn := hs.next v hv b
    cases hq : P.L.vehs a with
    | nil => rw [hq] at hp; cases hp
    | cons w t =>
      rw [hq] at hp
      simp only [Except.ok.injEq] at hp
      rw [← hp, Bool.eq_iff_iff]
      simp only [Bool.and_eq_true, Bool.or_eq_true, decide_eq_true_eq, hn, List.head?_cons,
        Option.some.injEq]
      tauto

theorem nonneg_sum : ∀ {l : List ℚ}, (∀ q ∈ l, 0 ≤ q) → 0 ≤ l.sum
  | [], _ => by simp
  | a :: t, h => by
    rw [List.sum_cons]
    exact add_nonneg (h a (by simp)) (nonneg_sum fun x hx => h x (List.mem_cons_of_mem _ hx))

theorem mem_le_sum : ∀ {l : List ℚ}, (∀ q ∈ l, 0 ≤ q) → ∀ q ∈ l, q ≤ l.sum
  | [], _, q, hq => by cases hq
  | a :: t, h, q, hq => by
    have ht : ∀ x ∈ t, 0 ≤ x := fun x hx => h x (List.mem_cons_of_mem _ hx)
    have h0 : 0 ≤ t.sum := nonneg_sum ht
    have ha : 0 ≤ a := h a (by simp)
    rw [List.sum_cons]
    rcases List.mem_cons.1 hq with rfl | hq
    · linarith
    · linarith [mem_le_sum ht q hq]

theorem firstMax_const (p : ℚ × ℕ) : ∀ ps : List (ℚ × ℕ), (∀ q ∈ ps, q.1 = p.1) →
    ps.foldl (fun best q => if best.1 < q.1 then q else best) p = p
  | [], _ => rfl
  | q :: t, hq => by
    have h1 : ¬ p.1 < q.1 := by rw [hq q (by simp)]; exact lt_irrefl _
    rw [List.foldl_cons, if_neg h1]
    exact firstMax_const p t (fun x hx => hq x (List.mem_cons_of_mem _ hx))

theorem zip_own (f : ℕ → ℚ) : ∀ vs : List ℕ, (vs.map f).zip vs = vs.map (fun v => (f v, v))
  | [] => rfl
  | v :: t => by simp [zip_own f t]

/-- In the deterministic mode both engines let the same vehicle merge. -/
theorem C126_merge (h : Alike P C) (n : ℕ) (vs : List ℕ) (v : ℕ) (W1 : World)
    (hd : P.cfg.hardDet = true) (hl : ∀ w ∈ vs, P.V.link w ≠ none)
    (h0 : ∀ w ∈ vs, 0 ≤ P.mergeOf w) (hp : P.pickMerge vs = .ok (v, W1)) :
    W1 = P ∧ C.pickMerge n vs = (some v, C) := by
  have hpri : ∀ w ∈ vs, C.priOf w = P.mergeOf w := by
    intro w hw
    unfold CWorld.priOf World.mergeOf
    rw [← h.vlink]
    cases hlw : P.V.link w with
    | none => exact absurd hlw (hl w hw)
    | some a => exact (h.priority a).symm
  unfold World.pickMerge at hp
  unfold CWorld.pickMerge
  have hd' : C.g.hardDet = true := by rw [h.det]; exact hd
  simp only [hd, hd', if_true] at hp ⊢
  rw [map_ok] at hp
  obtain ⟨u, hu, he⟩ := hp
  cases he
  refine ⟨rfl, ?_⟩
  rw [zip_own, List.map_congr_left (g := fun w => (P.mergeOf w, w)) (fun w hw => by rw [hpri w hw])]
  by_cases hs : (vs.map P.mergeOf).sum = 0
  · rw [if_pos hs] at hu
    have hz : ∀ w ∈ vs, P.mergeOf w = 0 := by
      intro w hw
      have h1 : ∀ q ∈ vs.map P.mergeOf, 0 ≤ q := by
        intro q hq; obtain ⟨x, hx, rfl⟩ := List.mem_map.1 hq; exact h0 x hx
      have h2 := mem_le_sum h1 (P.mergeOf w) (List.mem_map_of_mem hw)
      rw [hs] at h2
      exact le_antisymm h2 (h0 w hw)
    cases vs with
    | nil => cases hu
    | cons w t =>
      simp only [List.map_cons, argmaxFirst, Except.ok.injEq] at hu
      rw [firstMax_const _ _ (by
        intro q hq; obtain ⟨x, -, rfl⟩ := List.mem_map.1 hq; rfl)] at hu
      simp only [List.map_cons, firstMax]
      rw [firstMax_const _ _ (by
        intro q hq
        obtain ⟨x, hx, rfl⟩ := List.mem_map.1 hq
        simp only
        rw [hz x (List.mem_cons_of_mem _ hx), hz w (by simp)])]
      rw [← hu]
  · rw [if_neg hs] at hu
    cases vs with
    | nil => cases hu
    | cons w t =>
      simp only [List.map_cons, argmaxFirst, Except.ok.injEq] at hu
      simp only [List.map_cons, firstMax, hu]

/-- One slot of the transfer at a node has the same effect in both engines. -/
theorem C126_slot (h : Alike P C) (hc : Core P) (k : Fit P) (n b : ℕ) (P' : World)
    (hd : P.cfg.hardDet = true) (hs : SameWait n P C) (hb : b < P.nLinks)
    (hp : World.transferOne n P b = .ok P') :
    Alike P' (CWorld.transferOne n C b) ∧ SameWait n P' (CWorld.transferOne n C b) ∧ Fit P' := by
  unfold World.transferOne at hp
  unfold CWorld.transferOne
  have hg : (P.canEnter b && decide ((P.dn : ℚ) ≤ P.N.flowCapRem n)) =
      (C.canEnter b && !decide ((C.node n).flowRem < C.g.deltaN)) := by
    rw [C126_enter h b (hc.s.lanes_pos b hb), h.ncapLeft, h.dn, World.dn]
    congr 1
    rw [← decide_not]
    simp [not_lt]
  rw [← hg]
  split_ifs at hp ⊢ with hc0
  · rw [bind_ok] at hp
    obtain ⟨vs, hvs, hp⟩ := hp
    have hmem := filterE_ok hvs
    have hf := filterE_eq hvs (fun v hv x hx => C126_eligible h n b v x hs hv hx)
    rw [hs.list] at hf
    rw [← hf]
    cases vs with
    | nil => simp only [pure_ok] at hp; subst hp; exact ⟨h, hs, k⟩
    | cons v0 t0 =>
      dsimp only at hp ⊢
      rw [bind_ok] at hp
      obtain ⟨⟨v, W1⟩, hpm, hp⟩ := hp
      have hon : ∀ w ∈ v0 :: t0, ∃ a, P.V.link w = some a := by
        intro w hw
        have := (hmem w).1 hw
        unfold World.eligible at this
        cases hlw : P.V.link w with
        | none => rw [hlw] at this; simp at this
        | some a => exact ⟨a, rfl⟩
      have hvm := (pickMerge_spec hpm).1
      obtain ⟨rfl, hcm⟩ := C126_merge h n (v0 :: t0) v W1 hd
        (fun w hw => by obtain ⟨a, ha⟩ := hon w hw; rw [ha]; simp)
        (fun w hw => by
          obtain ⟨a, ha⟩ := hon w hw
          unfold World.mergeOf
          rw [ha]
          exact (k.links a (hc.s.link_run w a ha).2.2).2.2) hpm
      rw [hcm]
      dsimp only at hp ⊢
      obtain ⟨a, ha⟩ := hon v hvm
      have hel := ((hmem v).1 hvm).2
      unfold World.eligible at hel
      rw [ha] at hp hel
      rw [← h.vlink, ha]
      dsimp only at hp hel ⊢
      split at hel
      · simp at hel
      · rename_i hd0 t hvt
        simp only [Except.ok.injEq, Bool.and_eq_true, decide_eq_true_eq] at hel
        obtain ⟨⟨⟨rfl, -⟩, -⟩, -⟩ := hel
        exact alike_move h hc k n hd0 a b t P' hs ha hvt hb hp
  · cases hp; exact ⟨h, hs, k⟩

theorem alike_slots (n : ℕ) : ∀ (ls : List ℕ) {P P' : World} {C : CWorld}, Alike P C → Core P →
    Fit P → P.cfg.hardDet = true → SameWait n P C → n < P.nNodes → (∀ b ∈ ls, b < P.nLinks) →
    ls.foldlM (World.transferOne n) P = .ok P' →
    Alike P' (ls.foldl (CWorld.transferOne n) C) ∧ Core P'
  | [], P, P', C, h, hc, _, _, _, _, _, hp => by
    simp at hp; subst hp; exact ⟨h, hc⟩
  | b :: t, P, P', C, h, hc, k, hd, hs, hn, hb, hp => by
    rw [List.foldlM_cons, bind_ok] at hp
    obtain ⟨P1, h1, hp⟩ := hp
    obtain ⟨a1, a2, a3⟩ := C126_slot h hc k n b P1 hd hs (hb b (by simp)) h1
    have hst := transferOne_star hc hn h1
    have st := hst.static
    exact alike_slots n t a1 (hc.star hst) a3 (by rw [st.cfg]; exact hd) a2
      (by rw [st.nNodes]; exact hn)
      (fun x hx => by rw [st.nLinks]; exact hb x (List.mem_cons_of_mem _ hx)) hp

theorem endFront_false (C : CWorld) (l : ℕ) (h : (C.endFront l).2 = false) : (C.endFront l).1 = C := by
  unfold CWorld.endFront at h ⊢
  split
  · rfl
  · rename_i hd t hq
    rw [hq] at h
    dsimp only at h
    split_ifs at h ⊢
    rfl

theorem alike_endHeads (l : ℕ) : ∀ (j : ℕ) {P P' : World} {C : CWorld}, Alike P C → Core P →
    World.endHeads l j P = .ok P' → Alike P' (CWorld.endFronts l j C) ∧ Core P'
  | 0, P, P', C, h, hc, hp => by
    simp [World.endHeads] at hp; subst hp; exact ⟨h, hc⟩
  | j + 1, P, P', C, h, hc, hp => by
    simp only [World.endHeads] at hp
    rw [bind_ok] at hp
    obtain ⟨⟨W1, b⟩, h1, hp⟩ := hp
    obtain ⟨a1, a2⟩ := alike_endHead h l (W1, b) (fun w t hw =>
      (hc.s.link_run w l (hc.s.vehs_link l w (by rw [hw]; simp))).1) h1
    have hc1 : Core W1 := by
      rcases endHead_spec hc.s h1 with rfl | ⟨v, hp⟩
      · exact hc
      · exact hc.prim hp
    dsimp only at hp a1 a2
    unfold CWorld.endFronts
    rw [← a2]
    split_ifs at hp ⊢ with hb
    · exact alike_endHeads l j a1 hc1 hp
    · simp only [pure_ok] at hp
      subst hp
      rw [endFront_false C l (by rw [← a2]; simpa using hb)] at a1
      exact ⟨a1, hc1⟩

theorem alike_allHeads : ∀ (ls : List ℕ) {P P' : World} {C : CWorld}, Alike P C → Core P →
    ls.foldlM (fun W l => World.endHeads l (W.L.lanes l) W) P = .ok P' →
    Alike P' (ls.foldl (fun W a => CWorld.endFronts a (W.link a).lanes W) C)
  | [], P, P', C, h, _, hp => by simp at hp; subst hp; exact h
  | l :: t, P, P', C, h, hc, hp => by
    rw [List.foldlM_cons, bind_ok] at hp
    obtain ⟨P1, h1, hp⟩ := hp
    rw [h.lanes] at h1
    obtain ⟨a1, a2⟩ := alike_endHeads l _ h hc h1
    exact alike_allHeads t a1 a2 hp

theorem alike_collect (h : Alike P C) (n : ℕ) : Alike P (C.collect n) := by
  have key : ∀ (ls : List ℕ) (D : CWorld), Alike P D →
      Alike P (ls.foldl (fun W a => W.setL a (fun L => { L with arrived := [] })) D) := by
    intro ls
    induction ls with
    | nil => intro D hD; exact hD
    | cons a t ih => intro D hD; exact ih _ (alike_setL_same hD _ _ rfl)
  unfold CWorld.collect
  exact alike_setN_same (key _ _ h) _ _ rfl

/-- The links asked for at a node are served in the same order. -/
theorem alike_order (h : Alike P C) (n : ℕ) (hs : SameWait n P C) (ls : List ℕ)
    (hp : P.transferSlots n = .ok ls) : ls = C.slots n := by
  unfold World.transferSlots at hp
  split_ifs at hp with hu
  simp only [Except.ok.injEq] at hp
  rw [← hp]
  unfold CWorld.slots
  rw [← hs.list]
  have hfun : (fun l => List.replicate (P.L.lanes l) l) =
      fun l => List.replicate (C.link l).lanes l := funext fun l => by rw [h.lanes]
  rw [hfun]
  congr 2
  apply List.filterMap_congr
  intro v hv
  have hn := hs.next v hv
  cases hr : P.V.rnl v with
    | «to» b => exact ((hn b).1 hr).symm
    | unset =>
      cases hx : (C.veh v).next with
      | none => rfl
      | some b => rw [(hn b).2 hx] at hr; cases hr
    | none =>
      cases hx : (C.veh v).next with
      | none => rfl
      | some b => rw [(hn b).2 hx] at hr; cases hr

/-- In the deterministic mode the whole transfer at a node has the same effect in both engines, if
the same vehicles wait there in the same order. -/
theorem C126_transfer (h : Alike P C) (hc : Core P) (k : Fit P) (n : ℕ) (P' : World)
    (hd : P.cfg.hardDet = true) (hn : n < P.nNodes) (hs : SameWait n P (C.collect n))
    (hp : P.transfer n = .ok P') : Alike P' (C.transfer n) := by
  have hC := alike_collect h n
  have hd' : (C.collect n).g.hardDet = true := by rw [hC.det]; exact hd
  unfold World.transfer at hp
  unfold CWorld.transfer CWorld.shuffleSlots
  simp only [hd, hd', if_true] at hp ⊢
  rw [bind_ok] at hp
  obtain ⟨ls, h0, hp⟩ := hp
  have hls := alike_order hC n hs ls h0
  rw [bind_ok] at hp
  obtain ⟨P2, h2, hp⟩ := hp
  rw [bind_ok] at hp
  obtain ⟨P3, h3, hp⟩ := hp
  simp only [pure_ok] at hp
  have hb : ∀ b ∈ ls, b < P.nLinks := by
    intro b hb
    unfold World.transferSlots at h0
    split_ifs at h0
    simp only [Except.ok.injEq] at h0
    rw [← h0, List.mem_flatMap] at hb
    obtain ⟨l, hl, hb⟩ := hb
    have := List.eq_of_mem_replicate hb
    subst this
    have huniq : ∀ (xs : List ℕ) (x : ℕ), x ∈ uniqFirst xs → x ∈ xs := by
      intro xs
      induction xs with
      | nil => intro x hx; simp [uniqFirst] at hx
      | cons y t ih =>
        intro x hx
        rw [uniqFirst, List.mem_cons] at hx
        rcases hx with rfl | hx
        · exact List.mem_cons_self
        · exact List.mem_cons_of_mem _ (ih x (List.mem_filter.1 hx).1)
    have hl := huniq _ _ hl
    rw [List.mem_filterMap] at hl
    obtain ⟨v, hv, he⟩ := hl
    have hr : P.V.rnl v = .to b := by
      cases hx : P.V.rnl v <;> rw [hx] at he <;> simp at he
      rw [he]
    exact hc.s.rnl_lt v b hr
  obtain ⟨a1, a2⟩ := alike_slots n ls hC hc k hd hs hn hb h2
  rw [hls] at a1
  have a3 := alike_allHeads (P2.N.inlinks n) a1 a2 h3
  rw [a1.inLinks] at a3
  have a4 := alike_setN_same a3 n (fun N => { N with incoming := [] }) rfl
  subst hp
  exact ⟨a4.fl, a4.dt, a4.dn, a4.time, a4.det, a4.link, a4.veh, a4.node⟩

/-! ### Links, signals and node capacities -/

/-- The capacities of a link are refilled in the same way. The C++ engine treats a capacity of
`10e9` or more as unlimited, and rounds the product of platoon size and lanes. -/
theorem C126_link (h : Alike P C) (l : ℕ) (P' : World)
    (hl : P.cfg.fl (P.dn * P.L.lanes l) = P.dn * P.L.lanes l)
    (ho : P.L.capOut l < 10000000000) (hi : P.L.capIn l < 10000000000)
    (hp : P.linkUpdate l = .ok P') : Alike P' (C.linkUpdate l) := by
  unfold World.linkUpdate at hp
  dsimp only at hp
  split at hp
  · cases hp
  · cases hp
    refine ⟨h.fl, h.dt, h.dn, h.time, h.det, fun k => ?_, h.veh, h.node⟩
    have hk := h.link k
    by_cases e : k = l
    · subst e
      rw [h.capOut] at ho
      rw [h.capIn] at hi
      rw [World.dn, h.lanes] at hl
      simp only [pLink, cLink, LinkView.mk.injEq, CWorld.linkUpdate, CWorld.setL, upd, if_true,
        World.refillCaps, CWorld.refill, World.fl, World.dn, World.dt, h.fl, h.dn, h.dt, ho, hi,
        hl] at hk ⊢
      obtain ⟨h1, h2, h3, h4, h5, h6, h7, h8, h9, h10, h11, h12, h13⟩ := hk
      simp only [h1, h2, h3, h4, h5, h6, h7, h8, h9, h10, h11, h12, h13, and_self]
    · simpa [pLink, cLink, World.refillCaps, CWorld.linkUpdate, CWorld.setL, upd, e] using hk

/-- Signals: same phase always, same clock for a plan of at least two phases. The C++ engine does
not run the clock of a plan of one phase. -/
theorem C126_signal (h : Alike P C) (n : ℕ) (P' : World) (hp : P.signalControl n = .ok P') :
    Alike P' (C.signalUpdate n) := by
  unfold World.signalControl at hp
  split at hp
  · cases hp
  · rename_i g hg
    cases hp
    refine ⟨h.fl, h.dt, h.dn, h.time, h.det, h.link, h.veh, fun m => ?_⟩
    have hm := h.node m
    by_cases e : m = n
    · subst e
      have hph := h.phase m
      have hpl := h.plan m
      have hclk := h.clock m
      rw [hph, hpl] at hg
      rw [hpl] at hclk
      have hgd : (C.node m).sigInt.getD (C.node m).sigPhase 0 = g := by
        rw [List.getD_eq_getElem?_getD, hg]; rfl
      have hlt : (C.node m).sigPhase < (C.node m).sigInt.length := by
        by_contra hcon
        rw [List.getElem?_eq_none (not_lt.mp hcon)] at hg
        cases hg
      have hC : cNode ((C.signalUpdate m).node m) = { cNode (C.node m) with
          phase := ((C.signalUpdate m).node m).sigPhase
          clock := if 1 < (C.node m).sigInt.length then ((C.signalUpdate m).node m).sigT else 0 } := by
        simp [CWorld.signalUpdate, CWorld.setN, upd, cNode]
      rw [hC, ← hm]
      have e1 : ((C.signalUpdate m).node m).sigPhase = if g < P.N.signalT m then
          (if (C.node m).sigInt.length ≤ (C.node m).sigPhase + 1 then 0 else (C.node m).sigPhase + 1)
          else (C.node m).sigPhase := by
        by_cases h1 : 1 < (C.node m).sigInt.length
        · simp only [h1, if_true] at hclk
          simp [CWorld.signalUpdate, CWorld.setN, upd, hg, h1, ← hclk]
        · have hp0 : (C.node m).sigPhase = 0 := by omega
          have hle : (C.node m).sigInt.length ≤ 1 := by omega
          simp [CWorld.signalUpdate, CWorld.setN, upd, h1, hp0, hle]
      have e2 : 1 < (C.node m).sigInt.length → ((C.signalUpdate m).node m).sigT =
          P.cfg.fl ((if g < P.N.signalT m then 0 else P.N.signalT m) + P.cfg.deltat) := by
        intro h1
        simp only [h1, if_true] at hclk
        simp [CWorld.signalUpdate, CWorld.setN, upd, hg, h1, ← hclk, h.fl, h.dt]
      rw [e1]
      by_cases h1 : 1 < (C.node m).sigInt.length
      · rw [e2 h1]
        simp [pNode, upd, hph, hpl, h1, World.fl, World.dt]
      · simp [pNode, upd, hph, hpl, h1]
    · simpa [pNode, cNode, CWorld.signalUpdate, CWorld.setN, upd, e] using hm

/-- Node capacities are refilled in the same way. -/
theorem C126_nodecap (h : Alike P C) (n : ℕ)
    (hl : ∀ k : ℕ, P.cfg.fl (P.dn * k) = P.dn * k) :
    Alike (P.flowCapUpdate n) (C.flowUpdate n) := by
  have hcap := h.ncap n
  have hlan := h.nlanes n
  have hrem := h.ncapLeft n
  by_cases hc0 : 0 ≤ (C.node n).flowCap
  · rw [if_pos hc0] at hcap
    simp only [hcap, if_pos hc0, reduceCtorEq, if_false] at hlan
    have hthr : (P.dn : ℚ) * ((P.N.lanes n).getD 0 : ℕ) = C.g.fl (C.g.deltaN *
        ((if 0 < (C.node n).lanes then (C.node n).lanes else 1 : ℤ) : ℚ)) := by
      rw [← hlan, h.fl, h.dn, Int.cast_natCast, ← World.dn, hl]
    have hcast : (((if 0 < (C.node n).lanes then (C.node n).lanes else 1 : ℤ)) : ℚ) =
        (if 0 < (C.node n).lanes then ((C.node n).lanes : ℚ) else 1) := by
      split_ifs <;> simp
    have hrem' : ((C.flowUpdate n).node n).flowRem = if P.N.flowCapRem n < P.dn * (P.N.lanes n).getD 0
        then P.cfg.fl (P.N.flowCapRem n + P.cfg.fl ((C.node n).flowCap * P.cfg.deltat))
        else P.N.flowCapRem n := by
      rw [hthr, hcast]
      simp only [CWorld.flowUpdate, CWorld.setN, upd, if_true, hc0, hrem, h.fl, h.dt, Int.cast_ite,
        Int.cast_one]
    have hP : P.flowCapUpdate n = { P with N := { P.N with
        flowCapRem := upd P.N.flowCapRem n ((C.flowUpdate n).node n).flowRem } } := by
      rw [hrem']
      unfold World.flowCapUpdate
      rw [hcap]
      dsimp only
      split_ifs
      · rfl
      · have : upd P.N.flowCapRem n (P.N.flowCapRem n) = P.N.flowCapRem := by
          funext m; simp only [upd]; split
          · next e => rw [e]
          · rfl
        rw [this]
    rw [hP]
    refine ⟨h.fl, h.dt, h.dn, h.time, h.det, h.link, h.veh, fun m => ?_⟩
    have hm := h.node m
    by_cases e : m = n
    · subst e
      have hC : cNode ((C.flowUpdate m).node m) = { cNode (C.node m) with
          capLeft := ((C.flowUpdate m).node m).flowRem } := by
        simp [CWorld.flowUpdate, CWorld.setN, upd, cNode]
      rw [hC, ← hm]
      simp [pNode, upd]
    · simpa [pNode, cNode, CWorld.flowUpdate, CWorld.setN, upd, e] using hm
  · rw [if_neg hc0] at hcap
    unfold World.flowCapUpdate CWorld.flowUpdate
    rw [hcap]
    dsimp only
    refine ⟨h.fl, h.dt, h.dn, h.time, h.det, h.link, h.veh, fun m => ?_⟩
    have hm := h.node m
    by_cases e : m = n
    all_goals
      simp only [pNode, cNode, NodeView.mk.injEq, CWorld.setN, upd] at hm ⊢
      node_view hm

/-! ### Departures -/

theorem prefs_mapM {P : World} {v : ℕ} {g : ℕ → ℚ} (hg : ∀ l, P.prefOf v l = .ok (g l)) :
    ∀ ls : List ℕ, (ls.mapM (fun l => (P.prefOf v l).map (fun q => (q, l))) : M (List (ℚ × ℕ))) =
      .ok (ls.map (fun l => (g l, l)))
  | [] => rfl
  | l :: t => by
    rw [List.mapM_cons, hg l, prefs_mapM hg t]
    rfl

/-- In the deterministic mode a waiting vehicle asks for the same link. -/
theorem C126_choice (h : Alike P C) (n v : ℕ) (l : ℕ) (W1 : World) (rng : ℕ → ℕ)
    (hd : P.cfg.hardDet = true) (hs : SameChoice P C v) (cs : List ℕ)
    (ho : P.originCandidates v n = .ok cs) (hp : P.chooseLink v cs = .ok (l, W1)) :
    W1 = P ∧ l ∈ P.N.outlinks n ∧
      C.chooseNext v (C.node n).outLinks rng = .ok (some l, rng) := by
  have hcs : cs = P.N.outlinks n := by
    unfold World.originCandidates at ho
    rw [hs.route.1] at ho
    simp only [Except.ok.injEq] at ho
    rw [← ho]
    simp [World.preferAvoid, hs.prefer.1, hs.avoid.1]
  subst hcs
  unfold World.chooseLink at hp
  rw [prefs_mapM hs.weight] at hp
  simp only [hd, if_true] at hp
  rw [bind_ok] at hp
  obtain ⟨ps, hps, hp⟩ := hp
  cases hps
  rw [bind_ok] at hp
  obtain ⟨u, hu, hp⟩ := hp
  simp only [pure_ok, Prod.mk.injEq] at hp
  obtain ⟨rfl, rfl⟩ := hp
  obtain ⟨q, hq⟩ := argmaxFirst_mem hu
  obtain ⟨u', hu', he⟩ := List.mem_map.1 hq
  have hmem : u ∈ P.N.outlinks n := by
    simp only [Prod.mk.injEq] at he
    rw [← he.2]; exact hu'
  refine ⟨rfl, hmem, ?_⟩
  rw [← h.outLinks]
  have hd' : C.g.hardDet = true := by rw [h.det]; exact hd
  have hne : P.N.outlinks n ≠ [] := List.ne_nil_of_mem hmem
  have e1 : C.preferFilter v (P.N.outlinks n) = P.N.outlinks n := by
    simp [CWorld.preferFilter, hs.prefer.2]
  have e2 : C.avoidFilter v (P.N.outlinks n) = P.N.outlinks n := by
    simp [CWorld.avoidFilter, hs.avoid.2]
  have e3 : C.cyclicFilter v (P.N.outlinks n) = P.N.outlinks n := by
    unfold CWorld.cyclicFilter
    rcases hs.open_ with hc | hc
    · simp [hc]
    · simp [hc]
  unfold CWorld.chooseNext
  simp only [hne, if_false, hs.route.2, ne_eq, not_true_eq_false, e1, e2, e3]
  unfold CWorld.drawLink
  simp only [hd', if_true, zip_own]
  cases hx : P.N.outlinks n with
  | nil => exact absurd hx hne
  | cons w t =>
    rw [hx] at hu
    simp only [List.map_cons, argmaxFirst, Except.ok.injEq] at hu
    simp only [List.map_cons, firstMax, hu]

theorem depart_choice {P P' : World} {C : CWorld} {n v l w : ℕ} (hw : w ≠ v)
    (hp : P.depart n v l = .ok P') (hs : SameChoice P C w) : SameChoice P' (C.depart n v l) w := by
  have hC : (C.depart n v l).g = C.g ∧ (((C.depart n v l).veh w).prefer = (C.veh w).prefer ∧
      ((C.depart n v l).veh w).avoid = (C.veh w).avoid ∧
      ((C.depart n v l).veh w).route = (C.veh w).route ∧
      ((C.depart n v l).veh w).dest = (C.veh w).dest ∧
      ((C.depart n v l).veh w).visited = (C.veh w).visited) := by
    unfold CWorld.depart CWorld.attach
    extract_lets W1 W2 q lane W3
    split
    · split
      · rename_i u _
        refine ⟨rfl, ?_⟩
        by_cases e : w = u
        · subst e
          simp [CWorld.setL, CWorld.setV, CWorld.setN, upd, W1, W2, W3, hw]
        · simp [CWorld.setL, CWorld.setV, CWorld.setN, upd, W1, W2, W3, hw, e]
      · refine ⟨rfl, ?_⟩
        simp [CWorld.setL, CWorld.setV, CWorld.setN, upd, W1, W2, W3, hw]
    · refine ⟨rfl, ?_⟩
      simp [CWorld.setL, CWorld.setV, CWorld.setN, upd, W1, W2, W3, hw]
  have hP : P'.V.linksPrefer = P.V.linksPrefer ∧ P'.V.linksAvoid = P.V.linksAvoid ∧
      P'.V.specRoute = P.V.specRoute ∧ P'.V.pref = P.V.pref ∧ P'.R = P.R := by
    unfold World.depart at hp
    by_cases hc : P.L.cumArr l = []
    · simp [hc, bind, Except.bind, throw, throwThe, MonadExceptOf.throw] at hp
    simp only [hc, if_false, bind, Except.bind, pure, Except.pure] at hp
    split at hp
    · cases hp
    · next W2 hW2 =>
      cases hp
      obtain ⟨a, b, c, rfl⟩ := attach_form hW2
      exact ⟨rfl, rfl, rfl, rfl, rfl⟩
  obtain ⟨c0, c1, c2, c3, c4, c5⟩ := hC
  obtain ⟨p1, p2, p3, p4, p5⟩ := hP
  refine ⟨⟨?_, ?_⟩, ⟨?_, ?_⟩, ⟨?_, ?_⟩, fun k => ?_, ?_⟩
  · rw [p1]; exact hs.prefer.1
  · rw [c1]; exact hs.prefer.2
  · rw [p2]; exact hs.avoid.1
  · rw [c2]; exact hs.avoid.2
  · rw [p3]; exact hs.route.1
  · rw [c3]; exact hs.route.2
  · rw [c0, c4]
    have := hs.weight k
    unfold World.prefOf at this ⊢
    rw [p4, p5]; exact this
  · rw [c0, c5]; exact hs.open_

theorem depart_frame {P P' : World} {n v l : ℕ} (hp : P.depart n v l = .ok P') :
    P'.cfg = P.cfg ∧ P'.N.genq = upd P.N.genq n (P.N.genq n).tail ∧
      P'.V.state = upd P.V.state v .run ∧ P'.N.outlinks = P.N.outlinks ∧ P'.L.lanes = P.L.lanes := by
  unfold World.depart at hp
  by_cases hc : P.L.cumArr l = []
  · simp [hc, bind, Except.bind, throw, throwThe, MonadExceptOf.throw] at hp
  simp only [hc, if_false, bind, Except.bind, pure, Except.pure] at hp
  split at hp
  · cases hp
  · next W2 hW2 =>
    cases hp
    obtain ⟨a, b, c, rfl⟩ := attach_form hW2
    exact ⟨rfl, rfl, rfl, rfl, rfl⟩

theorem alike_genLoop (n : ℕ) : ∀ (k : ℕ) {P P' : World} {C : CWorld}, Alike P C →
    P.cfg.hardDet = true → (P.N.genq n).Nodup →
    (∀ v ∈ P.N.genq n, P.V.state v = .wait ∧ SameChoice P C v) →
    (∀ l ∈ P.N.outlinks n, 0 < P.L.lanes l) →
    World.generateLoop n k P = .ok P' → Alike P' (CWorld.genLoop n k C)
  | 0, P, P', C, h, _, _, _, _, hp => by
    simp [World.generateLoop] at hp; subst hp; exact h
  | k + 1, P, P', C, h, hd, hnd, hq, hl, hp => by
    unfold World.generateLoop at hp
    unfold CWorld.genLoop
    rw [← h.gen]
    cases hg : P.N.genq n with
    | nil => rw [hg] at hp; cases hp; exact h
    | cons v t =>
      rw [hg] at hp
      dsimp only at hp ⊢
      rw [bind_ok] at hp
      obtain ⟨cs, hcs, hp⟩ := hp
      rw [bind_ok] at hp
      obtain ⟨⟨l, W1⟩, hch, hp⟩ := hp
      obtain ⟨hst, hsc⟩ := hq v (by rw [hg]; simp)
      obtain ⟨rfl, hmem, hcn⟩ := C126_choice h n v l W1 (C.node n).rng hd hsc cs hcs hch
      rw [hcn]
      dsimp only at hp ⊢
      have h1 : Alike W1 ((C.setN n (fun N => { N with rng := (C.node n).rng })).setV v
          (fun V => { V with next := some l })) :=
        alike_setV_same (alike_setN_same h _ _ rfl) _ _ rfl
      rw [← C126_enter h1 l (hl l hmem)]
      split_ifs at hp ⊢ with hce
      · rw [bind_ok] at hp
        obtain ⟨P2, h2, hp⟩ := hp
        have h3 := C126_depart h1 n v l P2 (hl l hmem) hst h2
        obtain ⟨f1, f2, f3, f4, f5⟩ := depart_frame h2
        have hgt : P2.N.genq n = t := by rw [f2]; simp [upd, hg]
        have hvt : v ∉ t ∧ t.Nodup := by rw [hg] at hnd; exact List.nodup_cons.1 hnd
        refine alike_genLoop n k h3 (by rw [f1]; exact hd) (by rw [hgt]; exact hvt.2) ?_ ?_ hp
        · intro w hw
          rw [hgt] at hw
          have hwv : w ≠ v := fun e => hvt.1 (e ▸ hw)
          obtain ⟨hs1, hs2⟩ := hq w (by rw [hg]; exact List.mem_cons_of_mem _ hw)
          refine ⟨by rw [f3]; simp [upd, hwv, hs1], depart_choice hwv h2 ?_⟩
          exact ⟨⟨hs2.prefer.1, by simpa [CWorld.setV, CWorld.setN, upd, hwv] using hs2.prefer.2⟩,
            ⟨hs2.avoid.1, by simpa [CWorld.setV, CWorld.setN, upd, hwv] using hs2.avoid.2⟩,
            ⟨hs2.route.1, by simpa [CWorld.setV, CWorld.setN, upd, hwv] using hs2.route.2⟩,
            fun k => by simpa [CWorld.setV, CWorld.setN, upd, hwv] using hs2.weight k,
            by simpa [CWorld.setV, CWorld.setN, upd, hwv] using hs2.open_⟩
        · intro x hx
          rw [f4] at hx; rw [f5]; exact hl x hx
      · simp only [pure_ok] at hp; subst hp; exact h1

/-- In the deterministic mode the same vehicles leave the origin queue of a node, onto the same
links. -/
theorem C126_generate (h : Alike P C) (hc : Core P) (n : ℕ) (P' : World)
    (hd : P.cfg.hardDet = true) (hs : ∀ v ∈ P.N.genq n, SameChoice P C v)
    (hp : P.generate n = .ok P') : Alike P' (C.generate n) := by
  unfold World.generate at hp
  unfold CWorld.generate
  have hk : ((C.node n).outLinks.map (fun l => (C.link l).lanes)).sum =
      ((P.N.outlinks n).map P.L.lanes).sum := by
    rw [← h.outLinks]
    congr 1
    apply List.map_congr_left
    intro l _
    exact (h.lanes l).symm
  rw [hk]
  split_ifs with he
  · rw [← h.gen, ← h.outLinks] at he
    rcases he with he | he
    · cases hj : ((P.N.outlinks n).map P.L.lanes).sum with
      | zero => rw [hj] at hp; simp [World.generateLoop] at hp; subst hp; exact h
      | succ j => rw [hj] at hp; unfold World.generateLoop at hp; rw [he] at hp; cases hp; exact h
    · rw [he] at hp; simp [World.generateLoop] at hp; subst hp; exact h
  · exact alike_genLoop n _ h hd (hc.s.genq_nodup n)
      (fun v hv => ⟨(hc.s.genq_mem n v hv).1, hs v hv⟩)
      (fun l hl => hc.s.lanes_pos l ((hc.s.out_iff n l).1 hl).1) hp

/-! ### Worlds that are alike -/

/-- The Python world with a destination written into the places of vehicles that do not exist, and no
capacity into the places of nodes that do not exist. -/
def padded (P : World) : World :=
  { P with
    V := { P.V with dest := fun v => if v < P.nVeh then P.V.dest v else some 0 }
    N := { P.N with flowCap := fun n => if n < P.nNodes then P.N.flowCap n else none } }

/-- A C++ world with the same traffic. -/
def mirror (P : World) : CWorld :=
  { g :=
      { fl := P.cfg.fl, deltaN := P.cfg.deltan, tau := P.cfg.reactionTime, deltaT := P.cfg.deltat
        duoTime := 0, duoWeight := 0, noise := 0, hardDet := P.cfg.hardDet, gradual := false
        noCyclic := false, adjustCap := false, ttInterval := 1, logMode := true, totalSteps := P.tsize
        routeSteps := 1, nNodes := P.nNodes, nLinks := P.nLinks, nVehs := P.nVeh, timestep := P.T
        pref := P.R.pref, active := fun _ => true, adj := fun _ _ => none, next := fun _ _ => none
        dist := fun _ _ => none, living := fun v => decide (v ∈ P.living)
        running := fun v => decide (v ∈ P.running) }
    node := fun n =>
      { inLinks := P.N.inlinks n, outLinks := P.N.outlinks n, incoming := P.N.incoming n
        genQ := P.N.genq n, runBuf := [], sigInt := P.N.signal n, sigOff := P.N.signalOffset n
        sigT := P.N.signalT n, sigPhase := P.N.phase n, sigLog := []
        flowCap := (P.N.flowCap n).getD (-1), flowRem := P.N.flowCapRem n
        lanes := ((P.N.lanes n).getD 0 : ℕ), stat := 0, rng := fun _ => 0, exc := none }
    link := fun l =>
      { src := P.L.startN l, dst := P.L.endN l, len := P.L.length l, lanes := P.L.lanes l
        vmax := P.L.u l, kappa := P.L.kappa l, delta := P.L.delta l, deltaLane := P.L.deltaPerLane l
        tau := P.L.tau l, cap := P.L.capacity l, bws := P.L.w l, mergePri := P.L.mergePriority l
        capOut := P.L.capOut l, capOutRem := P.L.capOutRem l, capIn := P.L.capIn l
        capInRem := P.L.capInRem l, group := P.L.signalGroup l, penalty := 0, toll := []
        vehs := P.L.vehs l, arr := fun _ => 0, dep := fun _ => 0, ttReal := [], ttEvents := []
        ttApplied := 0, ttInst := fun _ => 0, arrived := [], ended := [], aveV := 0, aveVr := 0
        stat := 0, trips := 0, rng := fun _ => 0, exc := none }
    veh := fun v =>
      { depTime := P.V.depSec v, orig := P.V.orig v, dest := (P.V.dest v).getD 0, link := P.V.link v
        arrivalTime := -1, travelTime := -1, dist := P.V.dist v, x := P.V.x v, xNext := P.V.xNext v
        xOld := P.V.xOld v, v := P.V.v v, moveRem := P.V.moveRemain v, lane := P.V.lane v
        leader := P.V.leader v, follower := P.V.follower v, state := P.V.state v
        flagWait := P.V.flagEnd v, flagAbort := P.V.flagAborted v, tripAbort := P.V.tripAbort v
        arrTimeLink := P.V.linkArrTime v
        next := match P.V.rnl v with
          | .to b => some b
          | _ => none
        prefer := [], avoid := [], route := [], visited := fun _ => false, count := 0, log := []
        logFirst := -1, logLast := -1, logWait := 0, logEnd := 0, eager := [] } }

/-- Every Python world in which all vehicles have a destination has an alike C++ world, with the same
vehicles waiting at every node. -/
theorem C126_exists (P : World) (hc : Core P) (hd : ∀ v, v < P.nVeh → P.V.dest v ≠ none)
    (hn : ∀ n, n < P.nNodes → ∀ c, P.N.flowCap n = some c →
      0 ≤ c ∧ ∃ k : ℕ, P.N.lanes n = some k ∧ 0 < k)
    (hi : ∀ n, n < P.nNodes → (P.N.incoming n).Pairwise (· ≤ ·)) :
    Alike (padded P) (mirror (padded P)) ∧
      ∀ n, SameWait n (padded P) ((mirror (padded P)).collect n) := by
  refine ⟨⟨rfl, rfl, rfl, rfl, rfl, fun _ => rfl, fun v => ?_, fun n => ?_⟩, fun n => ⟨?_, ?_⟩⟩
  · have : (padded P).V.dest v = some (((padded P).V.dest v).getD 0) := by
      show (if v < P.nVeh then P.V.dest v else some 0) = _
      split_ifs with h
      · cases hx : P.V.dest v with
        | none => exact absurd hx (hd v h)
        | some d => simp [padded, h, hx]
      · simp [padded, h]
    simp only [pVeh, cVeh, mirror, VehView.mk.injEq, true_and, and_true]
    exact this
  · by_cases hlt : n < P.nNodes
    · cases hc : P.N.flowCap n with
      | none => simp [pNode, cNode, mirror, padded, hc]; rfl
      | some c =>
        obtain ⟨h0, k, hk, hk0⟩ := hn n hlt c hc
        simp [pNode, cNode, mirror, padded, hc, hlt, h0, hk, hk0]; rfl
    · simp [pNode, cNode, mirror, padded, hlt]; rfl
  · have e : ∀ ls : List ℕ, ls.flatMap (fun _ => ([] : List ℕ)) = [] := by
      intro ls; induction ls <;> simp_all
    rw [collect_node, if_pos rfl]
    show P.N.incoming n = CWorld.sortIds (P.N.incoming n ++ (P.N.inlinks n).flatMap (fun _ => []))
    rw [e, List.append_nil]
    refine (List.Pairwise.insertionSort_eq ?_).symm
    by_cases hlt : n < P.nNodes
    · exact hi n hlt
    · rw [hc.s.inc_lt n (not_lt.1 hlt)]; exact List.Pairwise.nil
  · intro v hv b
    rw [collect_veh]
    show P.V.rnl v = .to b ↔ (match P.V.rnl v with | .to b => some b | _ => none) = some b
    cases P.V.rnl v <;> simp

theorem padded_core {P : World} (hc : Core P) : Core (padded P) := by
  obtain ⟨hs, hf, hfin⟩ := hc
  refine ⟨?_, ?_, hfin⟩
  · cases hs
    constructor <;> assumption
  · have hlt : ∀ v a, P.V.link v = some a → v < P.nVeh := by
      intro v a hv
      by_contra hge
      have h1 := hs.fresh v (not_lt.1 hge)
      rw [(hs.link_run v a hv).1] at h1
      cases h1
    refine ⟨fun v a hv hfl => ?_, hf.aborted_flag, hf.young⟩
    have := hf.flag v a hv hfl
    simpa [padded, hlt v a hv] using this


/-- exact arithmetic, deterministic mode -/
def agreeCfg : Config := { demoCfg with hardDet := true }

/-- What the case below checks of a world: a vehicle waits at node 1 and moves on. -/
def agreeCheck (P : World) : Bool :=
  decide (P.finalized = true) && decide (P.cfg.hardDet = true) && decide (1 < P.nNodes) &&
  decide (∀ v < P.nVeh, P.V.dest v ≠ none ∧ 0 ≤ P.V.moveRemain v) &&
  decide (∀ l < P.nLinks, 0 ≤ P.L.u l ∧ 0 ≤ P.L.length l ∧ 0 ≤ P.L.mergePriority l) &&
  decide (∀ n < P.nNodes, P.N.flowCap n = none ∧ (P.N.incoming n).Pairwise (· ≤ ·)) &&
  decide (P.V.link 0 = some 0) &&
  obs ((padded P).transfer 1) (fun Q => decide (Q.V.link 0 = some 1))

set_option maxRecDepth 10000 in
/-- A case: a vehicle waits between two links of a scenario, the C++ world is alike, and the transfer
moves the vehicle to the second link in both. -/
theorem C126_case : ∃ (W P Q : World) (C : CWorld), Reachable Any W ∧ P = padded W ∧ Alike P C ∧ Core P ∧
    Fit P ∧ SameWait 1 P (C.collect 1) ∧ P.transfer 1 = .ok Q ∧ Alike Q (C.transfer 1) ∧
    (C.veh 0).link = some 0 ∧ ((C.transfer 1).veh 0).link = some 1 := by
  have h : obs (runCmds agreeCfg (fun _ => 0) (demo1 3)) (fun W => agreeCheck W && decide (W.nVeh = 2)) =
      true := by decide +kernel
  obtain ⟨W, hW, hchk⟩ := obs_ok h
  have hr := runCmds_reachable hW
  have hcfg : W.cfg = agreeCfg := runCmds_cfg hW
  simp only [agreeCheck, Bool.and_eq_true, decide_eq_true_eq] at hchk
  obtain ⟨⟨⟨⟨⟨⟨⟨⟨hfin, hdet⟩, hn⟩, hv⟩, hl⟩, hnode⟩, h0⟩, htr⟩, -⟩ := hchk
  have hcore : Core W := hr.inv.core hfin
  obtain ⟨Q, hQ, hq⟩ := obs_ok htr
  simp only [decide_eq_true_eq] at hq
  obtain ⟨hA, hS⟩ := C126_exists W hcore (fun v h => (hv v h).1)
    (fun n h c hc => by rw [(hnode n h).1] at hc; cases hc) (fun n h => (hnode n h).2)
  have hfit : Fit (padded W) := ⟨by
    show FlOK W.cfg.fl
    rw [hcfg]; exact ⟨fun _ _ h => h, rfl, fun _ => rfl⟩, fun v h => (hv v h).2, hl⟩
  have hT := C126_transfer hA (padded_core hcore) hfit 1 Q hdet hn (hS 1) hQ
  exact ⟨W, padded W, Q, mirror (padded W), hr, rfl, hA, padded_core hcore, hfit, hS 1, hQ, hT, h0,
    by rw [← hT.vlink]; exact hq⟩

end lemmas
end UX
