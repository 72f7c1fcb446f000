import Verif.Props.AgreeStep

/-!
# C128: the update of one vehicle in the two engines

`Vehicle.update` (uxsim.py:1143–1219) and `Vehicle::update` (traffi.cpp:833–881) of a running vehicle.
-/

namespace UX
open Cpp Agree

/-- Solves an equation of vehicle views from the equation before the step. -/
local macro "veh_view" h:ident : tactic => `(tactic| (
  obtain ⟨h1, h2, h3, h4, h5, h6, h7, h8, h9, h10, h11, h12, h13, h14, h15, h16⟩ := $h
  simp_all [live]))

section update
variable {P P' : World} {C : CWorld}

theorem SameAsk_keep {v a : ℕ} {C' : CWorld} (hi : P'.N.incoming = P.N.incoming)
    (hr : ∀ w, w ≠ v → P'.V.rnl w = P.V.rnl w) (hn : ∀ w, w ≠ v → (C'.veh w).next = (C.veh w).next)
    (hl : ∀ l, (C'.link l).arrived = (C.link l).arrived)
    (hm : ∀ n, (C'.node n).incoming = (C.node n).incoming) : SameAsk v a P C P' C' :=
  ⟨fun w hw => ⟨hr w hw, hn w hw⟩, fun l _ => hl l, fun n => ⟨hm n, fun _ => by rw [hi]⟩,
    .inl ⟨by rw [hi], hl a⟩⟩

/-- Waiting for the end of the trip. -/
theorem alike_waitEnd (h : Alike P C) (v a : ℕ) (hst : P.V.state v = .run)
    (hp : P.waitEnd v a = .ok P') : Alike P' (C.waitEnd v a) ∧ P'.N.incoming = P.N.incoming ∧
      P'.V.rnl = P.V.rnl ∧ CStill C (C.waitEnd v a) := by
  unfold World.waitEnd at hp
  unfold CWorld.waitEnd
  extract_lets V0 P1 at hp
  extract_lets C1
  have h1 : Alike P1 C1 := by
    refine ⟨h.fl, h.dt, h.dn, h.time, h.det, h.link, fun w => ?_, h.node⟩
    have hw := h.veh w
    by_cases e : w = v
    · subst e
      have hs2 := h.state w
      simp only [pVeh, cVeh, VehView.mk.injEq, P1, V0, C1, CWorld.setV, upd, if_true] at hw ⊢
      rw [hst] at hs2
      veh_view hw
    · simpa [P1, V0, C1, CWorld.setV, upd, pVeh, e] using hw
  have hq : (C1.link a).vehs = P1.L.vehs a := (h1.queue a).symm
  have c1 : CStill C C1 := still_setV _ _ _ rfl
  rw [hq]
  cases hv : P1.L.vehs a with
  | nil => rw [hv] at hp; cases hp
  | cons x t =>
    rw [hv] at hp
    simp only [List.head?_cons, Option.some.injEq] at hp ⊢
    split_ifs at hp ⊢ with e
    · have s := endTrip_still (n := P.nNodes) hp
      obtain ⟨l, -, -, -, -, -, rfl⟩ := World.endTrip_ok hp
      obtain ⟨x1, x2, x3, x4, x5, hx⟩ := World.recordLog_frame (P1.endTripCore v l) v true
      refine ⟨C126_end h1 v _ hp, ?_, s.rnl, c1.trans (still_endTrip C1 v)⟩
      rw [hx]; rfl
    · rw [Except.ok.injEq] at hp
      subst hp
      exact ⟨h1, rfl, rfl, c1⟩

theorem choice_logData {w : ℕ} (v : ℕ) (s : Option ℕ) (hs : SameChoice P C w) :
    SameChoice P (C.logData v s) w := by
  have hk : ∀ (D : CWorld) (x : ℕ) (f : CVeh → CVeh), ((f (D.veh x)).prefer = (D.veh x).prefer ∧
      (f (D.veh x)).avoid = (D.veh x).avoid ∧ (f (D.veh x)).route = (D.veh x).route ∧
      (f (D.veh x)).dest = (D.veh x).dest ∧ (f (D.veh x)).visited = (D.veh x).visited) →
      SameChoice P D w → SameChoice P (D.setV x f) w := by
    intro D x f ⟨a1, a2, a3, a4, a5⟩ h
    by_cases e : w = x
    · subst e
      refine ⟨⟨h.prefer.1, ?_⟩, ⟨h.avoid.1, ?_⟩, ⟨h.route.1, ?_⟩, fun l => ?_, ?_⟩
      · simpa [CWorld.setV, upd, a1] using h.prefer.2
      · simpa [CWorld.setV, upd, a2] using h.avoid.2
      · simpa [CWorld.setV, upd, a3] using h.route.2
      · simpa [CWorld.setV, upd, a4] using h.weight l
      · simpa [CWorld.setV, upd, a5] using h.open_
    · refine ⟨⟨h.prefer.1, ?_⟩, ⟨h.avoid.1, ?_⟩, ⟨h.route.1, ?_⟩, fun l => ?_, ?_⟩
      · simpa [CWorld.setV, upd, e] using h.prefer.2
      · simpa [CWorld.setV, upd, e] using h.avoid.2
      · simpa [CWorld.setV, upd, e] using h.route.2
      · simpa [CWorld.setV, upd, e] using h.weight l
      · simpa [CWorld.setV, upd, e] using h.open_
  unfold CWorld.logData
  have h1 : SameChoice P (C.logStats v) w := by
    unfold CWorld.logStats
    split
    · exact ⟨hs.prefer, hs.avoid, hs.route, hs.weight, hs.open_⟩
    · exact ⟨hs.prefer, hs.avoid, hs.route, hs.weight, hs.open_⟩
    · exact hs
  unfold CWorld.logPush
  split
  · exact hk _ _ _ ⟨rfl, rfl, rfl, rfl, rfl⟩ h1
  · exact h1

theorem choice_advance {v : ℕ} (hs : SameChoice P C v) : SameChoice (P.advance v) (C.advance v) v :=
  ⟨⟨hs.prefer.1, by simpa [CWorld.advance, CWorld.setV, upd] using hs.prefer.2⟩,
    ⟨hs.avoid.1, by simpa [CWorld.advance, CWorld.setV, upd] using hs.avoid.2⟩,
    ⟨hs.route.1, by simpa [CWorld.advance, CWorld.setV, upd] using hs.route.2⟩,
    fun l => by
      rw [show (P.advance v).prefOf v l = P.prefOf v l from rfl, hs.weight l]
      simp [CWorld.advance, CWorld.setV, upd],
    by simpa [CWorld.advance, CWorld.setV, upd] using hs.open_⟩

/-- At the end of a link: waiting for the end of the trip, or the request for a transfer. -/
theorem C128_end (h : Alike P C) (v a : ℕ) (hd : P.cfg.hardDet = true) (hc : P.cfg.noCyclic = false)
    (hst : P.V.state v = .run) (hl : P.V.link v = some a) (hm : P.V.mode v = .single)
    (hs : SameChoice P C v) (hp : P.atLinkEnd v a = .ok P') :
    Alike P' (C.atEnd v a) ∧ SameAsk v a P C P' (C.atEnd v a) := by
  unfold World.atLinkEnd at hp
  unfold CWorld.atEnd
  extract_lets n at hp
  have hdest : P.V.dest v = some n ↔ (C.link a).dst = (C.veh v).dest := by
    rw [h.dest, ← h.dst]
    simp only [Option.some.injEq, n]
    exact eq_comm
  by_cases h1 : P.V.dest v = some n
  · rw [if_pos h1] at hp
    rw [if_pos (hdest.1 h1)]
    rw [hm] at hp
    dsimp only at hp
    obtain ⟨r1, r2, r3, r4⟩ := alike_waitEnd h v a hst hp
    exact ⟨r1, SameAsk_keep r2 (fun w _ => by rw [r3]) (fun w _ => r4.1 w) r4.2.2.1 r4.2.1⟩
  rw [if_neg h1] at hp
  rw [if_neg (fun e => h1 (hdest.2 e))]
  have hout : (C.node (C.link a).dst).outLinks = P.N.outlinks n := by rw [← h.outLinks, ← h.dst]
  rw [hout, ← h.mayAbort]
  by_cases h2 : P.N.outlinks n = [] ∧ P.V.tripAbort v = true
  · rw [if_pos h2] at hp ⊢
    generalize hP1 : ({ P with V := { P.V with
        flagAborted := upd P.V.flagAborted v true
        rnl := upd P.V.rnl v .none } } : World) = P1 at hp
    generalize hC1 : (C.setV v (fun V => { V with flagAbort := true, next := none })) = C1
    have k1 : Alike P1 C1 := by
      subst hP1 hC1
      refine ⟨h.fl, h.dt, h.dn, h.time, h.det, h.link, fun w => ?_, h.node⟩
      have hw := h.veh w
      by_cases e : w = v
      · subst e
        simp only [pVeh, cVeh, VehView.mk.injEq, CWorld.setV, upd, if_true] at hw ⊢
        veh_view hw
      · simpa [CWorld.setV, upd, pVeh, e] using hw
    obtain ⟨r1, r2, r3, r4⟩ := alike_waitEnd k1 v a (by subst hP1; exact hst) hp
    refine ⟨r1, SameAsk_keep (r2.trans (by subst hP1; rfl)) (fun w hw => ?_) (fun w hw => ?_)
      (fun l => (r4.2.2.1 l).trans (by subst hC1; rfl)) (fun m => (r4.2.1 m).trans (by subst hC1; rfl))⟩
    · rw [r3]; subst hP1; simp [upd, hw]
    · rw [r4.1 w]; subst hC1; simp [CWorld.setV, upd, hw]
  rw [if_neg h2] at hp ⊢
  rw [bind_ok] at hp
  obtain ⟨P1, hP1, hp⟩ := hp
  simp only [pure_ok] at hp
  subst hp
  obtain ⟨o, ho, hr⟩ : ∃ o : Option ℕ, C.chooseNext v (C.node (C.link a).dst).outLinks (C.link a).rng =
      .ok (o, (C.link a).rng) ∧ ∃ r : Rnl, P1 = P.setRnl v r ∧ ∀ b, r = .to b ↔ o = some b := by
    unfold World.nextLinkChoice at hP1
    rw [hl] at hP1
    dsimp only at hP1
    rw [hs.route.1] at hP1
    dsimp only at hP1
    rw [if_neg h1] at hP1
    split_ifs at hP1 with h3
    · cases hP1
      refine ⟨none, ?_, .none, rfl, fun b => by simp⟩
      unfold CWorld.chooseNext
      rw [hout, if_pos h3]
    · rw [bind_ok] at hP1
      obtain ⟨⟨l, W1⟩, hcl, hP1⟩ := hP1
      have hcand : P.nextCandidates v (P.L.endN a) = P.N.outlinks n := by
        unfold World.nextCandidates
        simp [hc, World.preferAvoid, hs.prefer.1, hs.avoid.1, n]
      have hor : P.originCandidates v n = .ok (P.N.outlinks n) := by
        unfold World.originCandidates
        simp [hs.route.1, World.preferAvoid, hs.prefer.1, hs.avoid.1]
      rw [hcand] at hcl
      obtain ⟨rfl, -, he⟩ := C126_choice h n v l W1 (C.link a).rng hd hs _ hor hcl
      simp only [pure_ok] at hP1
      refine ⟨some l, ?_, .to l, hP1.symm, fun b => by simp⟩
      rw [← he, ← h.dst]
  obtain ⟨r, rfl, hrb⟩ := hr
  unfold CWorld.request
  rw [ho]
  dsimp only
  refine ⟨⟨h.fl, h.dt, h.dn, h.time, h.det, fun l => ?_, fun w => ?_, h.node⟩, ?_⟩
  · have hk := h.link l
    by_cases e : l = a
    · subst e
      simpa [World.pushIncoming, World.setRnl, CWorld.setV, CWorld.setL, upd, pLink, cLink] using hk
    · simpa [World.pushIncoming, World.setRnl, CWorld.setV, CWorld.setL, upd, pLink, e] using hk
  · have hw := h.veh w
    by_cases e : w = v
    · subst e
      simpa [World.pushIncoming, World.setRnl, CWorld.setV, CWorld.setL, upd, pVeh, cVeh] using hw
    · simpa [World.pushIncoming, World.setRnl, CWorld.setV, CWorld.setL, upd, pVeh, e] using hw
  · refine ⟨fun w hw => ?_, fun l hl => ?_, fun m => ⟨rfl, fun hm => ?_⟩, .inr ⟨?_, ?_, fun b => ?_⟩⟩
    · simp [World.pushIncoming, World.setRnl, CWorld.setV, CWorld.setL, upd, hw]
    · simp [CWorld.setV, CWorld.setL, upd, hl]
    · simp [World.pushIncoming, World.setRnl, upd, n, hm]
    · simp [World.pushIncoming, World.setRnl, upd, n]
    · simp [CWorld.setV, CWorld.setL, upd]
    · simpa [World.pushIncoming, World.setRnl, CWorld.setV, CWorld.setL, upd] using hrb b

/-- In the deterministic mode the update of a running vehicle has the same effect in both engines:
movement, the end of the trip, giving up at a dead end, and the request for a link. The Python
engine tests whether the position equals the length of the link, the C++ engine whether it differs by
less than 1e-9, so positions in between are excluded. -/
theorem C128_update (h : Alike P C) (v a : ℕ) (hd : P.cfg.hardDet = true) (hc : P.cfg.noCyclic = false)
    (hg : P.cfg.gradual = false) (h0 : P.cfg.fl 0 = 0)
    (hst : P.V.state v = .run) (hl : P.V.link v = some a) (hm : P.V.mode v = .single)
    (he : P.V.nodeEvent v (P.L.endN a) = none) (hs : SameChoice P C v)
    (hx : P.V.xNext v = P.L.length a ∨
      1 / 1000000000 ≤ |P.cfg.fl (P.V.xNext v - P.L.length a)|)
    (s : Option ℕ) (hp : P.vehUpdate v = .ok P') :
    Alike P' (C.vehUpdate v s) ∧ SameAsk v a P C P' (C.vehUpdate v s) := by
  have l1 := alike_logData (alike_recordLog h v false) v s
  have ch := choice_logData (w := v) v s hs
  unfold World.vehUpdate at hp
  unfold CWorld.vehUpdate
  extract_lets P1 at hp
  extract_lets C1
  have hP1 : P1 = P.recordLog v false := by
    obtain ⟨x1, x2, x3, x4, x5, hx⟩ := World.recordLog_frame P v false
    simp only [P1, World.startWait]
    rw [if_neg]
    rw [hx]
    simp [hst]
  clear_value P1
  subst hP1
  obtain ⟨x1, x2, x3, x4, x5, hxe⟩ := World.recordLog_frame P v false
  rw [hxe] at hp l1
  generalize hQ : ({ P with
      avgSpeed := x2, avgCount := x3, V := { P.V with log := x1, logTLink := x4, linkOld := x5 } } : World) = Q at hp l1
  have q1 : Q.V.state v = .run := by subst hQ; exact hst
  have q2 : Q.V.link v = some a := by subst hQ; exact hl
  have q3 : Q.V.mode v = .single := by subst hQ; exact hm
  have q4 : SameChoice Q C1 v := by
    subst hQ; exact ⟨ch.prefer, ch.avoid, ch.route, ch.weight, ch.open_⟩
  have q5 : Q.cfg = P.cfg ∧ Q.N = P.N ∧ Q.V.rnl = P.V.rnl ∧ Q.L = P.L ∧ Q.V.xNext = P.V.xNext ∧
      Q.V.nodeEvent = P.V.nodeEvent := by subst hQ; exact ⟨rfl, rfl, rfl, rfl, rfl, rfl⟩
  obtain ⟨e1, e2, e3, e4, e5, e6⟩ := q5
  have k1 : Alike Q C1 := l1
  have cs : CStill C C1 := still_logData C v s
  clear_value C1
  rw [q1] at hp
  rw [show (C1.veh v).state = .run by rw [← k1.state]; exact q1]
  dsimp only at hp ⊢
  have k2 := C126_drive k1 v
  have a2 : CStill C1 (C1.advance v) := still_setV _ _ _ rfl
  have q6 := choice_advance q4
  unfold World.runUpdate at hp
  extract_lets P2 at hp
  have p2 : P2.V.link v = some a := q2
  rw [p2] at hp
  rw [show ((C1.advance v).veh v).link = some a by rw [← k2.vlink]; exact p2]
  dsimp only at hp ⊢
  have px : P2.V.x v = P.V.xNext v := by simp [P2, World.advance, upd, e5]
  have plen : P2.L.length a = P.L.length a := by show Q.L.length a = _; rw [e4]
  have cond : P2.V.x v = P2.L.length a ↔
      |(C1.advance v).g.fl (((C1.advance v).veh v).x - ((C1.advance v).link a).len)| < 1 / 1000000000 := by
    rw [← k2.x, ← k2.len, k2.fl]
    show _ ↔ |Q.cfg.fl (P2.V.x v - P2.L.length a)| < _
    rw [e1, px, plen]
    constructor
    · intro e; rw [e, sub_self, h0]; norm_num
    · intro e
      rcases hx with h | h
      · exact h
      · exact absurd e (not_lt.2 h)
  have cs3 : CStill C (C1.advance v) := cs.trans a2
  have pn : P2.N = P.N := e2
  have pr : P2.V.rnl = P.V.rnl := e3
  by_cases hend : P2.V.x v = P2.L.length a
  · rw [if_pos hend] at hp
    rw [if_pos (cond.1 hend)]
    have hev : P2.V.nodeEvent v (P2.L.endN a) = none := by
      show Q.V.nodeEvent v _ = none
      rw [e6, show P2.L.endN a = P.L.endN a by show Q.L.endN a = _; rw [e4]]
      exact he
    rw [hev] at hp
    have hgr : P2.cfg.gradual = false := by show Q.cfg.gradual = false; rw [e1]; exact hg
    simp only [pure_bind, hgr, Bool.false_eq_true, if_false] at hp
    obtain ⟨r1, r2⟩ := C128_end k2 v a (by show Q.cfg.hardDet = true; rw [e1]; exact hd)
      (by show Q.cfg.noCyclic = false; rw [e1]; exact hc) q1 p2 q3 q6 hp
    refine ⟨r1, ?_⟩
    have hen : (Q.advance v).L.endN a = P.L.endN a := by show Q.L.endN a = _; rw [e4]
    refine ⟨fun w hw => ⟨(r2.others w hw).1.trans (by rw [← pr]), (r2.others w hw).2.trans (cs3.1 w)⟩,
      fun l hl => (r2.links l hl).trans (cs3.2.2.1 l),
      fun n => ⟨(r2.nodes n).1.trans (cs3.2.1 n), fun hn => ?_⟩, ?_⟩
    · rw [(r2.nodes n).2 (by rw [hen]; exact hn), ← pn]
    · rcases r2.own with ⟨o1, o2⟩ | ⟨o1, o2, o3⟩
      · rw [hen] at o1
        exact .inl ⟨o1.trans (by rw [← pn]), o2.trans (cs3.2.2.1 a)⟩
      · rw [hen] at o1
        exact .inr ⟨o1.trans (by rw [← pn]), o2.trans (by rw [cs3.2.2.1 a]), o3⟩
  · rw [if_neg hend] at hp
    rw [if_neg (fun e => hend (cond.2 e))]
    rw [Except.ok.injEq] at hp
    subst hp
    exact ⟨k2, SameAsk_keep (by rw [← pn]) (fun w _ => by rw [← pr]) (fun w _ => cs3.1 w) cs3.2.2.1 cs3.2.1⟩

/-- The update of a vehicle that is not running has the same effect: it joins the origin queue when its
time has come, and nothing happens to a vehicle that waits there or has ended its trip. This is for
departure times of whole time steps, exact arithmetic and vehicles with the same origin. -/
theorem C128_rest (h : Alike P C) (v : ℕ) (hg : P.cfg.gradual = false) (hfl : P.cfg.fl = id)
    (hdt : 0 < P.cfg.deltat) (hst : P.V.state v ≠ .run) (ho : P.V.orig v = (C.veh v).orig)
    (ht : (C.veh v).depTime = (P.V.depTime v : ℚ) * P.cfg.deltat)
    (s : Option ℕ) (hp : P.vehUpdate v = .ok P') : Alike P' (C.vehUpdate v s) := by
  have l1 := alike_logData (alike_recordLog h v false) v s
  obtain ⟨x1, x2, x3, x4, x5, hxe⟩ := World.recordLog_frame P v false
  have hd : ((C.logData v s).veh v).depTime = (C.veh v).depTime ∧
      ((C.logData v s).veh v).orig = (C.veh v).orig := by
    have h1 : (C.logStats v).veh = C.veh := by
      unfold CWorld.logStats; split <;> rfl
    unfold CWorld.logData CWorld.logPush
    split
    · simp [CWorld.setV, upd, h1]
    · simp [h1]
  unfold World.vehUpdate at hp
  unfold CWorld.vehUpdate
  extract_lets C1
  have l2 : Alike (P.recordLog v false) C1 := l1
  have hd1 : (C1.veh v).depTime = (C.veh v).depTime := hd.1
  have hd2 : (C1.veh v).orig = (C.veh v).orig := hd.2
  clear_value C1
  rw [hxe] at hp l2
  generalize hQ : ({ P with
      avgSpeed := x2, avgCount := x3, V := { P.V with log := x1, logTLink := x4, linkOld := x5 } } : World) = Q at hp l2
  have q1 : Q.V.state v = P.V.state v := by subst hQ; rfl
  have q2 : Q.cfg = P.cfg ∧ Q.V.depTime = P.V.depTime ∧ Q.V.orig = P.V.orig ∧ Q.T = P.T := by
    subst hQ; exact ⟨rfl, rfl, rfl, rfl⟩
  obtain ⟨e1, e2, e3, e4⟩ := q2
  rw [← l2.state v, q1]
  have hnow : (C1.veh v).depTime ≤ C1.now ↔ P.V.depTime v ≤ P.T := by
    rw [hd1, ht, ← l2.now]
    unfold World.now World.fl World.dt
    rw [e1, hfl, e4]
    simp only [id]
    constructor
    · intro hh
      have := le_of_mul_le_mul_right hh hdt
      exact_mod_cast this
    · intro hh
      exact mul_le_mul_of_nonneg_right (by exact_mod_cast hh) hdt.le
  cases hs : P.V.state v with
  | run => exact absurd hs hst
  | home =>
    dsimp only
    by_cases ht2 : P.V.depTime v ≤ P.T
    · rw [if_pos (hnow.2 ht2)]
      unfold World.startWait at hp
      rw [if_pos (show Q.V.state v = .home ∧ Q.V.depTime v ≤ Q.T by rw [q1, e2, e4]; exact ⟨hs, ht2⟩)] at hp
      have hgq : Q.cfg.gradual = false := by rw [e1]; exact hg
      simp only [upd, if_true, hgq, Bool.false_eq_true, if_false, Except.ok.injEq] at hp
      subst hp
      refine ⟨l2.fl, l2.dt, l2.dn, l2.time, l2.det, l2.link, fun w => ?_, fun n => ?_⟩
      · have hw := l2.veh w
        by_cases e : w = v
        · subst e
          have hh : (C1.veh w).state = .home := by rw [← l2.state, q1, hs]
          simp only [pVeh, cVeh, VehView.mk.injEq, CWorld.setV, CWorld.setN, upd, if_true] at hw ⊢
          veh_view hw
        · simpa [CWorld.setV, CWorld.setN, upd, pVeh, e] using hw
      · have hn := l2.node n
        have hor : Q.V.orig v = (C1.veh v).orig := by rw [e3, ho, hd2]
        by_cases e : n = Q.V.orig v
        · subst e
          simp only [pNode, cNode, NodeView.mk.injEq, CWorld.setV, CWorld.setN, upd, if_true, hor] at hn ⊢
          obtain ⟨n1, n2, n3, n4, n5, n6, n7, n8, n9⟩ := hn
          exact ⟨n1, n2, by rw [n3], n4, n5, n6, n7, n8, n9⟩
        · have e' : n ≠ (C1.veh v).orig := by rw [← hor]; exact e
          simpa [CWorld.setV, CWorld.setN, upd, pNode, e, e'] using hn
    · rw [if_neg (fun e => ht2 (hnow.1 e))]
      unfold World.startWait at hp
      rw [e2, e4] at hp
      simp only [ht2, and_false, if_false, q1, hs, Except.ok.injEq] at hp
      subst hp; exact l2
  | wait =>
    unfold World.startWait at hp
    rw [q1] at hp
    simp only [hs, reduceCtorEq, false_and, if_false, q1, e1, hg, Bool.false_eq_true, Except.ok.injEq] at hp
    subst hp; exact l2
  | ended =>
    unfold World.startWait at hp
    rw [q1] at hp
    simp only [hs, reduceCtorEq, false_and, if_false, q1, Except.ok.injEq] at hp
    subst hp; exact l2
  | abort =>
    unfold World.startWait at hp
    rw [q1] at hp
    simp only [hs, reduceCtorEq, false_and, if_false, q1, Except.ok.injEq] at hp
    subst hp; exact l2

/-! ### Cases -/

/-- Two links that merge into a link of two lanes; the second link has priority. -/
def demoMerge (k : ℕ) : List Cmd :=
  [.node { name := "a" }, .node { name := "b" }, .node { name := "c" }, .node { name := "d" },
   .link { startN := .obj 0, endN := .obj 2, length := 200 },
   .link { startN := .obj 1, endN := .obj 2, length := 200, mergePriority := 2 },
   .link { startN := .obj 2, endN := .obj 3, length := 200, lanes := 2 },
   .veh { orig := .obj 0, dest := some (.obj 3), dep := .step 0 },
   .veh { orig := .obj 1, dest := some (.obj 3), dep := .step 0 },
   .fin (some 300)] ++ List.replicate k .tick

/-- What the cases check of a world. -/
def readyCheck (P : World) : Bool :=
  decide (P.finalized = true) &&
  decide (∀ v < P.nVeh, P.V.dest v ≠ none ∧ 0 ≤ P.V.moveRemain v) &&
  decide (∀ l < P.nLinks, 0 ≤ P.L.u l ∧ 0 ≤ P.L.length l ∧ 0 ≤ P.L.mergePriority l) &&
  decide (∀ l < P.nLinks, P.L.capOut l < 10000000000 ∧ P.L.capIn l < 10000000000) &&
  decide (∀ n < P.nNodes, P.N.flowCap n = none ∧ (P.N.incoming n).Pairwise (· ≤ ·)) &&
  decide (∀ n < P.nNodes, ∀ v ∈ P.N.genq n, v < P.nVeh) &&
  decide (∀ v < P.nVeh, P.V.linksPrefer v = [] ∧ P.V.linksAvoid v = [] ∧ P.V.specRoute v = none ∧
    (match P.V.pref v with | .duo k => decide (P.V.dest v = some k) | _ => false) = true)

theorem ready_demo {W : World} {r : ℕ → ℕ} {cs : List Cmd} (hW : runCmds agreeCfg r cs = .ok W)
    (hchk : readyCheck W = true) : StepReady (padded W) (mirror (padded W)) ∧
      (padded W).cfg.fl = id ∧ 0 ≤ (padded W).cfg.deltat ∧
      (∀ v, v < W.nVeh → SameChoice (padded W) (mirror (padded W)) v) ∧
      (∀ n, n < (padded W).nNodes → ∀ v ∈ (padded W).N.genq n,
        SameChoice (padded W) (mirror (padded W)) v) := by
  have hr := runCmds_reachable hW
  have hcfg : W.cfg = agreeCfg := runCmds_cfg hW
  simp only [readyCheck, Bool.and_eq_true, decide_eq_true_eq] at hchk
  obtain ⟨⟨⟨⟨⟨⟨hfin, hv⟩, hl⟩, hcap⟩, hnode⟩, hgq⟩, hq⟩ := hchk
  have hcore : Core W := hr.inv.core hfin
  obtain ⟨hA, hS⟩ := C126_exists W hcore (fun v h => (hv v h).1)
    (fun n h c hc => by rw [(hnode n h).1] at hc; cases hc) (fun n h => (hnode n h).2)
  have hid : W.cfg.fl = id := by rw [hcfg]; rfl
  have hsc : ∀ v, v < W.nVeh → SameChoice (padded W) (mirror (padded W)) v := by
    intro v q0
    obtain ⟨q1, q2, q3, q4⟩ := hq v q0
    refine ⟨⟨q1, rfl⟩, ⟨q2, rfl⟩, ⟨q3, rfl⟩, fun l => ?_, .inl rfl⟩
    unfold World.prefOf
    show (match W.V.pref v with
      | .dict f => _
      | .duo k => (.ok (W.R.pref k l) : M ℚ)) = .ok (W.R.pref (((padded W).V.dest v).getD 0) l)
    cases hp : W.V.pref v with
    | dict f => rw [hp] at q4; cases q4
    | duo k =>
      rw [hp] at q4
      simp only [decide_eq_true_eq] at q4
      simp [padded, q0, q4]
  refine ⟨⟨hA, padded_core hcore, ⟨?_, fun v h => (hv v h).2, hl⟩, ?_, fun k => ?_, hcap,
      fun n _ => hS n, rfl, rfl⟩, hid, ?_, hsc, fun n hn v hvq => hsc v (hgq n hn v hvq)⟩
  · show FlOK W.cfg.fl
    rw [hid]; exact ⟨fun _ _ h => h, rfl, fun _ => rfl⟩
  · show W.cfg.hardDet = true
    rw [hcfg]; rfl
  · show W.cfg.fl _ = _
    rw [hid]; rfl
  · show 0 ≤ W.cfg.deltat
    rw [hcfg]; decide +kernel

/-- What the case below checks. -/
def askCheck (W : World) : Bool :=
  readyCheck W && decide (0 < W.nVeh) && decide (W.V.state 0 = .run) && decide (W.V.link 0 = some 0) &&
  decide (W.V.mode 0 = .single) && decide (W.V.xNext 0 = W.L.length 0) &&
  (W.V.nodeEvent 0 (W.L.endN 0)).isNone &&
  obs ((padded W).vehUpdate 0) (fun Q => decide (Q.V.rnl 0 = .to 2))

set_option maxRecDepth 10000 in
/-- A case: a vehicle at the end of its link asks for the link of two lanes. -/
theorem C128_case : ∃ (W P Q : World) (C : CWorld), Reachable Any W ∧ P = padded W ∧ Alike P C ∧
    P.cfg.hardDet = true ∧ P.cfg.noCyclic = false ∧ P.cfg.gradual = false ∧ P.V.state 0 = .run ∧
    P.V.link 0 = some 0 ∧ P.V.mode 0 = .single ∧
    P.V.nodeEvent 0 (P.L.endN 0) = none ∧ SameChoice P C 0 ∧ P.V.xNext 0 = P.L.length 0 ∧
    P.vehUpdate 0 = .ok Q ∧ Alike Q (C.vehUpdate 0 none) ∧ Q.V.rnl 0 = .to 2 := by
  have h : obs (runCmds agreeCfg (fun _ => 0) (demoMerge 3)) askCheck = true := by decide +kernel
  obtain ⟨W, hW, hchk⟩ := obs_ok h
  have hcfg : W.cfg = agreeCfg := runCmds_cfg hW
  simp only [askCheck, Bool.and_eq_true, decide_eq_true_eq] at hchk
  obtain ⟨⟨⟨⟨⟨⟨⟨hc, h0⟩, h1⟩, h2⟩, h3⟩, h4⟩, he⟩, h5⟩ := hchk
  rw [Option.isNone_iff_eq_none] at he
  obtain ⟨r, hid, -, hs, -⟩ := ready_demo hW hc
  obtain ⟨Q, hQ, hq⟩ := obs_ok h5
  simp only [decide_eq_true_eq] at hq
  have g1 : (padded W).cfg.noCyclic = false := by show W.cfg.noCyclic = false; rw [hcfg]; rfl
  have g2 : (padded W).cfg.gradual = false := by show W.cfg.gradual = false; rw [hcfg]; rfl
  exact ⟨W, padded W, Q, mirror (padded W), runCmds_reachable hW, rfl, r.alike, r.det, g1, g2, h1, h2, h3, he,
    hs 0 h0, h4, hQ, (C128_update r.alike 0 0 r.det g1 g2 (by rw [hid]; rfl) h1 h2 h3 he (hs 0 h0) (.inl h4)
      none hQ).1, hq⟩

/-- One link and a vehicle with the given departure time. -/
def demoHome (d : World.DepTime) (k : ℕ) : List Cmd :=
  [.node { name := "a" }, .node { name := "b" },
   .link { startN := .obj 0, endN := .obj 1, length := 200 },
   .veh { orig := .obj 0, dest := some (.obj 1), dep := d },
   .fin (some 300)] ++ List.replicate k .tick

/-- What the next two theorems check: a vehicle at home that joins the queue in the Python engine. -/
def homeCheck (W : World) : Bool :=
  readyCheck W && decide (W.V.state 0 = .home) && obs ((padded W).vehUpdate 0) (fun Q => decide (Q.V.state 0 = .wait))

set_option maxRecDepth 10000 in
/-- A case: a vehicle joins its origin queue. -/
theorem C128_rest_case : ∃ (W P Q : World) (C : CWorld), Reachable Any W ∧ P = padded W ∧ Alike P C ∧
    P.cfg.gradual = false ∧ P.cfg.fl = id ∧ 0 < P.cfg.deltat ∧ P.V.state 0 = .home ∧
    P.V.orig 0 = (C.veh 0).orig ∧ (C.veh 0).depTime = (P.V.depTime 0 : ℚ) * P.cfg.deltat ∧
    P.vehUpdate 0 = .ok Q ∧ Alike Q (C.vehUpdate 0 none) ∧ Q.V.state 0 = .wait := by
  have h : obs (runCmds agreeCfg (fun _ => 0) (demoHome (.step 2) 2)) (fun W => homeCheck W &&
      decide (W.V.depSec 0 = (W.V.depTime 0 : ℚ) * agreeCfg.deltat)) = true := by decide +kernel
  obtain ⟨W, hW, hchk⟩ := obs_ok h
  have hcfg : W.cfg = agreeCfg := runCmds_cfg hW
  simp only [homeCheck, Bool.and_eq_true, decide_eq_true_eq] at hchk
  obtain ⟨⟨⟨hc, h1⟩, h2⟩, h3⟩ := hchk
  obtain ⟨r, hid, -, -, -⟩ := ready_demo hW hc
  obtain ⟨Q, hQ, hq⟩ := obs_ok h2
  simp only [decide_eq_true_eq] at hq
  have g2 : (padded W).cfg.gradual = false := by show W.cfg.gradual = false; rw [hcfg]; rfl
  have g3 : 0 < (padded W).cfg.deltat := by show 0 < W.cfg.deltat; rw [hcfg]; decide +kernel
  have g4 : ((mirror (padded W)).veh 0).depTime = ((padded W).V.depTime 0 : ℚ) * (padded W).cfg.deltat := by
    show W.V.depSec 0 = (W.V.depTime 0 : ℚ) * W.cfg.deltat
    rw [hcfg]; exact h3
  exact ⟨W, padded W, Q, mirror (padded W), runCmds_reachable hW, rfl, r.alike, g2, hid, g3, h1, rfl, g4, hQ,
    C128_rest r.alike 0 g2 hid g3 (by show W.V.state 0 ≠ .run; rw [h1]; simp) rfl g4 none hQ, hq⟩

/-- The departure time of vehicle 0 in seconds. -/
def lateVeh (C : CWorld) (t : ℚ) : CWorld := C.setV 0 (fun V => { V with depTime := t })

set_option maxRecDepth 10000 in
/-- **C128, finding.** A departure time between two time steps is rounded down in the Python engine and
up in the C++ engine: with time steps of 5 s a vehicle that leaves at 7 s joins the queue at 5 s in
Python and later in C++. -/
theorem C128_departure_false : ¬ ∀ (P Q : World) (C : CWorld) (v : ℕ) (t : ℚ), Alike P C → Core P → Fit P →
    P.cfg.fl = id → 0 < P.cfg.deltat → P.V.orig v = (C.veh v).orig → (C.veh v).depTime = t →
    P.V.depTime v = pyInt (t / P.cfg.deltat) → P.vehUpdate v = .ok Q → Q.V.state v = ((C.vehUpdate v none).veh v).state := by
  intro H
  have h : obs (runCmds agreeCfg (fun _ => 0) (demoHome (.sec 7) 1)) (fun W => homeCheck W &&
      decide (W.V.depTime 0 = pyInt (7 / agreeCfg.deltat)) &&
      decide ((((lateVeh (mirror (padded W)) 7).vehUpdate 0 none).veh 0).state = .home)) = true := by decide +kernel
  obtain ⟨W, hW, hchk⟩ := obs_ok h
  have hcfg : W.cfg = agreeCfg := runCmds_cfg hW
  simp only [homeCheck, Bool.and_eq_true, decide_eq_true_eq] at hchk
  obtain ⟨⟨⟨⟨hc, -⟩, h2⟩, h4⟩, h3⟩ := hchk
  obtain ⟨r, hid, -, -, -⟩ := ready_demo hW hc
  obtain ⟨Q, hQ, hq⟩ := obs_ok h2
  simp only [decide_eq_true_eq] at hq
  have g3 : 0 < (padded W).cfg.deltat := by show 0 < W.cfg.deltat; rw [hcfg]; decide +kernel
  have k : Alike (padded W) (lateVeh (mirror (padded W)) 7) := by
    have h := r.alike
    refine ⟨h.fl, h.dt, h.dn, h.time, h.det, h.link, fun w => ?_, h.node⟩
    have hw := h.veh w
    by_cases e : w = 0
    · subst e
      simpa [lateVeh, CWorld.setV, upd, cVeh] using hw
    · simpa [lateVeh, CWorld.setV, upd, e] using hw
  have := H _ _ _ 0 7 k r.core r.fit hid g3 rfl rfl (by
    show W.V.depTime 0 = pyInt (7 / W.cfg.deltat)
    rw [hcfg]; exact h4) hQ
  rw [hq, h3] at this
  cases this

/-- What the counterexample below checks. -/
def orderCheck (W : World) : Bool :=
  readyCheck W && obs (padded W).step (fun Q => decide (Q.V.state 0 = .run)) &&
  decide (((CWorld.region (mirror (padded W)).seqSched (mirror (padded W))).veh 0).state = .ended)

set_option maxRecDepth 10000 in
/-- **C128, finding.** The engines do not agree through the whole step. Two vehicles reach the end of
a link of two lanes side by side, the second one created stands first in the queue. The Python engine
updates vehicles in order of creation, so the first one created finds the other before it and ends its
trip one step later; the C++ engine goes along the queue and ends both trips. -/
theorem C128_order_false : ¬ ∀ (P Q : World) (C : CWorld), StepReady P C → P.cfg.fl = id →
    0 ≤ P.cfg.deltat → (∀ n, n < P.nNodes → ∀ v ∈ P.N.genq n, SameChoice P C v) → P.step = .ok Q →
    ∀ v, Q.V.state v = ((CWorld.region C.seqSched C).veh v).state := by
  intro H
  have h : obs (runCmds agreeCfg (fun _ => 0) (demoMerge 4)) orderCheck = true := by decide +kernel
  obtain ⟨W, hW, hchk⟩ := obs_ok h
  simp only [orderCheck, Bool.and_eq_true, decide_eq_true_eq] at hchk
  obtain ⟨⟨hc, h1⟩, h2⟩ := hchk
  obtain ⟨r, hid, hdt, -, hs⟩ := ready_demo hW hc
  obtain ⟨Q, hQ, hq⟩ := obs_ok h1
  simp only [decide_eq_true_eq] at hq
  have := H _ _ _ r hid hdt hs hQ 0
  rw [hq, h2] at this
  cases this

end update
end UX
