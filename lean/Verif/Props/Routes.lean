import Verif.Props.Demo
import Verif.Model.Route
import Verif.Spec.Route
import Verif.Proofs.Lanes
import Verif.Proofs.Enforced
import Verif.Proofs.EInv

/-! Lanes and leaders (C07), travelled routes (C11), enforced routes (C12), link choice (C13, C14),
`Route` objects (C40). -/

namespace UX
open World

/-- A time step changes no static attribute. -/
theorem tick_static {W W' : World} (hi : Inv W) (hf : W.finalized = true) (h : W.tick = .ok W') :
    ∃ W6, Static W W6 ∧ W' = { W6 with time := W6.now, T := W6.T + 1 } := by
  obtain ⟨W1, h1, rfl⟩ := tick_ok h
  obtain ⟨W6, hs, rfl⟩ := step_star (hi.core hf) h1
  exact ⟨W6, hs.static, rfl⟩

theorem specRoute_stays {W W' : World} (hi : Inv W) (hs : ApiStep W W') {v : VehId} {r : List LinkId}
    (hv : v < W.nVeh) (hr : W.V.specRoute v = some r)
    (hE : ¬ ∃ rs b, W.enforceRoute v rs b = .ok W') : W'.V.specRoute v = some r := by
  have soft : ∀ {X : World}, Soft W X → X.V.specRoute v = some r := by
    rintro X ⟨_, _, _, _, _, _, _, rfl, -⟩; exact hr
  have hk := hs.kinds
  cases hs with
  | @enforceRoute _ u rs b hu h =>
    have hne : v ≠ u := by rintro rfl; exact hE ⟨_, _, h⟩
    unfold World.enforceRoute at h
    obtain ⟨r', -, h⟩ := bind_ok.mp h
    rw [pure_ok] at h
    subst h
    dsimp only
    rw [upd_ne _ _ hne]; exact hr
  | addNode hf h => obtain ⟨ph, t, soff, _, hn, rfl⟩ := addNode_ok h; exact hr
  | addLink hf h =>
    obtain ⟨s, e, nm, k, p, -, -, -, -, -, -, rfl⟩ := addLink_ok h; exact hr
  | addVehicle h =>
    obtain ⟨o, d, dep, pref, cache, lp, la, nm, -, -, -, -, -, -, -, -, rfl⟩ := addVehicle_ok h
    simp only [addVehRes, upd_apply, if_neg (Nat.ne_of_lt hv)]; exact hr
  | finalize hf =>
    rename_i tm
    obtain ⟨ts, tta, fc, fr, la, he⟩ := finalize_frame W tm
    rw [he]; exact hr
  | tick hf hT h =>
    obtain ⟨W6, hst, rfl⟩ := tick_static hi hf h
    show W6.V.specRoute v = some r
    rw [hst.specRoute]; exact hr
  | endExec => exact hr
  | overrideSignal => exact hr
  | overrideSignalGroups _ h =>
    unfold World.overrideSignalGroups at h
    split at h
    · simp at h
    · split at h
      · simp at h
      · simp only [Except.ok.injEq] at h
        subst h; exact hr
  | setLinksPrefer _ h =>
    unfold World.setLinksPrefer at h
    obtain ⟨_, -, h⟩ := bind_ok.mp h
    rw [pure_ok] at h; subst h; exact hr
  | setLinksAvoid _ h =>
    unfold World.setLinksAvoid at h
    obtain ⟨_, -, h⟩ := bind_ok.mp h
    rw [pure_ok] at h; subst h; exact hr
  | addDest _ _ h => exact soft (addDest_soft h)
  | addTripRequest h =>
    unfold World.addTripRequest at h
    obtain ⟨_, -, h⟩ := bind_ok.mp h
    obtain ⟨_, -, h⟩ := bind_ok.mp h
    rw [pure_ok] at h; subst h; exact hr
  | @assignTaxi _ u r hu h =>
    unfold World.assignTaxi at h
    split at h
    · simp at h
    · obtain ⟨W1, h1, h⟩ := bind_ok.mp h
      rw [pure_ok] at h; subst h
      exact soft (((addDest_soft h1).trans (setEvent_soft W1 u (W1.H.orig r) (some (.getOn r)))).trans
        ⟨_, _, _, _, _, _, _, rfl, fun _ _ => rfl⟩)
  | setCapOut => exact hr
  | setCapIn => exact hr
  | changeFreeFlowSpeed _ h =>
    unfold World.changeFreeFlowSpeed at h
    split at h
    · split at h
      · simp at h
      · dsimp only at h
        split at h
        · simp at h
        · simp only [Except.ok.injEq] at h; subst h; exact hr
    · simp only [Except.ok.injEq] at h; subst h; exact hr
  | changeJamDensity _ _ h =>
    unfold World.changeJamDensity at h
    split at h
    · split at h
      · simp at h
      · dsimp only at h
        split at h
        · simp at h
        · simp only [Except.ok.injEq] at h; subst h; exact hr
    · simp only [Except.ok.injEq] at h; subst h; exact hr
  | reseed => exact hr

/-! ### C07 -/

/-- C07: lane numbers of vehicles on a link are below the number of lanes. -/
theorem C07_lane {W : World} (h : Reachable Any W) {v : VehId} {l : LinkId} (hv : W.V.link v = some l) :
    W.V.lane v < W.L.lanes l :=
  have hs := h.inv.s.link_run v l hv
  ((LInv.reach h).ok l hs.2.2).lt v hs.2.1

/-- C07: the leader of the vehicle at place `i` of a link is exactly the closest vehicle ahead (place
`j < i`) in the same lane of the same link. -/
theorem C07_leader {W : World} (h : Reachable Any W) {l : LinkId} (hl : l < W.nLinks) {i : ℕ} {v : VehId}
    (hv : (W.L.vehs l)[i]? = some v) (w : VehId) :
    W.V.leader v = some w ↔ ∃ j < i, (W.L.vehs l)[j]? = some w ∧ W.V.lane w = W.V.lane v ∧
      ∀ m, j < m → m < i → ∀ u, (W.L.vehs l)[m]? = some u → W.V.lane u ≠ W.V.lane v := by
  have hL := (LInv.reach h).ok l hl
  have hk := h.inv.s.lanes_pos l hl
  have hlt := (List.getElem?_eq_some_iff.mp hv).1
  -- vehicles fewer than `lanes` places apart are in different lanes
  have key : ∀ m u, m < i → i < m + W.L.lanes l → (W.L.vehs l)[m]? = some u →
      W.V.lane u ≠ W.V.lane v := by
    intro m u hm1 hm2 hu he
    have h1 := hL.lane_add hu (i - m) (w := v) (by rw [show m + (i - m) = i by omega]; exact hv)
    have h2 := hL.lt u (List.mem_of_getElem? hu)
    rw [he] at h1 h2
    generalize hx : W.V.lane v = x at *
    generalize W.L.lanes l = k at *
    have hd : i - m < k := by omega
    by_cases hxk : x + (i - m) < k
    · rw [Nat.mod_eq_of_lt hxk] at h1; omega
    · rw [Nat.mod_eq_sub_mod (by omega), Nat.mod_eq_of_lt (by omega)] at h1; omega
  rw [hL.lead i v hv]
  constructor
  · intro hw
    split at hw
    · cases hw
    · rename_i hik
      refine ⟨i - W.L.lanes l, by omega, hw, ?_, fun m h1 h2 u hu => key m u h2 (by omega) hu⟩
      have h1 := hL.lane_add hw (W.L.lanes l) (w := v)
        (by rw [show i - W.L.lanes l + W.L.lanes l = i by omega]; exact hv)
      rw [h1, Nat.add_mod_right, Nat.mod_eq_of_lt (hL.lt w (List.mem_of_getElem? hw))]
  · rintro ⟨j, hj, hw, hlane, hno⟩
    have hjk : j + W.L.lanes l ≤ i := by
      by_contra hc
      exact key j w hj (by omega) hw hlane
    rw [if_neg (by omega)]
    by_cases he : j = i - W.L.lanes l
    · rw [← he]; exact hw
    · exfalso
      have h2 : (W.L.vehs l)[i - W.L.lanes l]? = some ((W.L.vehs l)[i - W.L.lanes l]'(by omega)) :=
        List.getElem?_eq_getElem (by omega)
      refine hno (i - W.L.lanes l) (by omega) (by omega) _ h2 ?_
      have h1 := hL.lane_add h2 (W.L.lanes l) (w := v)
        (by rw [show i - W.L.lanes l + W.L.lanes l = i by omega]; exact hv)
      rw [h1, Nat.add_mod_right, Nat.mod_eq_of_lt (hL.lt _ (List.mem_of_getElem? h2))]

/-! ### C11 -/

theorem PathFrom.snoc {L : LinkF} {o : NodeId} {r : List LinkId} {l : LinkId} :
    PathFrom L o (r ++ [l]) ↔ PathFrom L o r ∧ L.startN l = pathEnd L o r := by
  induction r generalizing o with
  | nil => simp [PathFrom, pathEnd]
  | cons a r ih =>
    simp only [List.cons_append, PathFrom, ih, and_assoc]
    have : pathEnd L (L.endN a) r = pathEnd L o (a :: r) := by
      unfold pathEnd
      cases r with
      | nil => simp
      | cons b r => rw [List.getLast?_cons_cons]; simp [List.getLast?_cons]
    rw [this]

theorem NPath.pathFrom {L : LinkF} {o : NodeId} {r : List LinkId} (h : NPath L.startN L.endN o r) :
    PathFrom L o r.reverse ∧ pathEnd L o r.reverse = lastEnd L.endN o r := by
  induction r with
  | nil => exact ⟨trivial, rfl⟩
  | cons l r ih =>
    obtain ⟨h1, h2⟩ := ih h.2
    refine ⟨?_, ?_⟩
    · rw [List.reverse_cons, PathFrom.snoc, h2]; exact ⟨h1, h.1⟩
    · simp [pathEnd, lastEnd]

/-- C11: the links in the route log of a vehicle form a connected path that starts at its origin. -/
theorem C11_path {W : World} (h : Reachable Any W) (v : VehId) :
    PathFrom W.L (W.V.orig v) (W.loggedLinks v).reverse :=
  (NPath.pathFrom ((RInv.reach h).path v)).1

/-- C11: if the trip has ended, the path ends at the destination (and is not empty). -/
theorem C11_end {W : World} (h : Reachable Any W) {v : VehId} (hv : W.V.state v = .ended) :
    W.loggedLinks v ≠ [] ∧ W.V.dest v = some (pathEnd W.L (W.V.orig v) (W.loggedLinks v).reverse) := by
  have hm : W.V.mode v = .single := by
    obtain ⟨l, hl⟩ := (EInv.reach h).fin_ev v hv
    exact (((EInv.reach h).ev_fin _ _ _ _ hl).2.2.1 rfl).2.1
  obtain ⟨l, r, h1, h2⟩ := (RInv.reach h).fin v hm hv
  have h3 : W.loggedLinks v = l :: r := h1
  refine ⟨by rw [h3]; simp, ?_⟩
  rw [h2, h3]
  simp [pathEnd]

/-- C40: a `Route` is created exactly if consecutive links are connected, and then consists of the
given links. -/
theorem C40_create {W : World} (h : Reachable Any W) {rs : List Ref} {ls : List LinkId}
    (hls : rs.mapM W.getLink = .ok ls) (r : List LinkId) :
    W.mkRoute rs = .ok r ↔ r = ls ∧ ls.IsChain (fun a b => W.L.startN b = W.L.endN a) := by
  have hS := h.inv.s
  induction rs generalizing ls r with
  | nil =>
    obtain rfl : ls = [] := by simpa [pure, Except.pure] using hls.symm
    simp [mkRoute, eq_comm]
  | cons a rs ih =>
    rw [List.mapM_cons] at hls
    obtain ⟨l, hl, hls⟩ := bind_ok.mp hls
    obtain ⟨ls', hls', hls⟩ := bind_ok.mp hls
    rw [pure_ok] at hls
    subst hls
    cases rs with
    | nil =>
      obtain rfl : ls' = [] := by simpa [pure, Except.pure] using hls'.symm
      simp [mkRoute, hl, bind, Except.bind, pure, Except.pure, eq_comm]
    | cons b rs =>
      have hb := hls'
      rw [List.mapM_cons] at hb
      obtain ⟨l2, hl2, hb⟩ := bind_ok.mp hb
      obtain ⟨ls2, -, hb⟩ := bind_ok.mp hb
      rw [pure_ok] at hb
      subst hb
      have hl2n : l2 < W.nLinks := h.inv.n.getLink_lt hl2
      rw [mkRoute, hl, hl2]
      simp only [bind, Except.bind]
      by_cases hc : W.L.startN l2 = W.L.endN l
      · rw [if_pos (by
          rw [List.contains_eq_mem, decide_eq_true_eq, hS.out_iff]; exact ⟨hl2n, hc⟩)]
        simp only [List.isChain_cons_cons]
        constructor
        · intro hr
          split at hr
          · cases hr
          · rename_i r' hr'
            simp only [pure, Except.pure, Except.ok.injEq] at hr
            obtain ⟨h1, h2⟩ := (ih hls' r').mp hr'
            exact ⟨by rw [← hr, h1], hc, h2⟩
        · rintro ⟨rfl, -, h2⟩
          rw [(ih hls' _).mpr ⟨rfl, h2⟩]
          rfl
      · rw [if_neg (by
          rw [List.contains_eq_mem, decide_eq_true_eq, hS.out_iff]; exact fun h => hc h.2)]
        simp [throw, throwThe, MonadExceptOf.throw, hc]

/-- C40: the travel time of a route is the sum of the travel times of its links, each evaluated at the
time the previous link is left. -/
theorem C40_travel_time {W : World} (hfl : W.cfg.fl = id) {r : List LinkId} {t tot : ℚ} {qs : List ℚ}
    (h : W.routeTravelTime r 0 t = .ok (tot, qs)) :
    tot = qs.sum ∧ qs.length = r.length ∧ ∀ i l, r[i]? = some l →
      ∃ q, qs[i]? = some q ∧ W.actualTravelTime l (t + (qs.take i).sum) = .ok q := by
  have gen : ∀ (r : List LinkId) (t0 t tot : ℚ) (qs : List ℚ),
      W.routeTravelTime r t0 t = .ok (tot, qs) → tot = t0 + qs.sum ∧ qs.length = r.length ∧
      ∀ i l, r[i]? = some l →
        ∃ q, qs[i]? = some q ∧ W.actualTravelTime l (t + (qs.take i).sum) = .ok q := by
    intro r
    induction r with
    | nil =>
      intro t0 t tot qs h
      simp only [routeTravelTime, Except.ok.injEq, Prod.mk.injEq] at h
      obtain ⟨rfl, rfl⟩ := h
      simp
    | cons a r ih =>
      intro t0 t tot qs h
      rw [routeTravelTime] at h
      obtain ⟨q, hq, h⟩ := bind_ok.mp h
      obtain ⟨⟨tot', qs'⟩, h', h⟩ := bind_ok.mp h
      simp only [pure_ok, Prod.mk.injEq] at h
      obtain ⟨rfl, rfl⟩ := h
      obtain ⟨h1, h2, h3⟩ := ih _ _ _ _ h'
      have e1 : W.fl (t0 + q) = t0 + q := by unfold World.fl; rw [hfl]; rfl
      have e2 : W.fl (t + q) = t + q := by unfold World.fl; rw [hfl]; rfl
      rw [e1] at h1
      rw [e2] at h3
      refine ⟨by rw [h1, List.sum_cons]; ring, by simp [h2], ?_⟩
      intro i l hl
      cases i with
      | zero =>
        obtain rfl : a = l := by simpa using hl
        exact ⟨q, rfl, by simpa using hq⟩
      | succ i =>
        obtain ⟨q', hq', h4⟩ := h3 i l (by simpa using hl)
        refine ⟨q', by simpa using hq', ?_⟩
        rw [List.take_succ_cons, List.sum_cons, ← add_assoc]
        exact h4
  obtain ⟨h1, h2, h3⟩ := gen r 0 t tot qs h
  exact ⟨by rw [h1, zero_add], h2, h3⟩

/-- C11: `traveled_route` never raises, and returns the logged links. -/
theorem C11_no_raise {W : World} (h : Reachable Any W) {v : VehId} (hv : v < W.nVeh) (ia id : Bool) :
    ∃ ts, W.traveledRoute v ia id = .ok ((W.loggedLinks v).reverse, ts) := by
  have hR := RInv.reach h
  have hne : (W.V.logTLink v).reverse ≠ [] := by simpa using hR.log v hv
  have hg : ((W.loggedLinks v).reverse.map Ref.obj).mapM W.getLink = .ok (W.loggedLinks v).reverse := by
    have hlt : ∀ l ∈ (W.loggedLinks v).reverse, l < W.nLinks := fun l hl => by
      rw [List.mem_reverse] at hl; exact hR.lnk v l hl
    generalize (W.loggedLinks v).reverse = ls at hlt
    induction ls with
    | nil => rfl
    | cons a ls ih =>
      rw [List.map_cons, List.mapM_cons, ih (fun l hl => hlt l (by simp [hl]))]
      simp [getLink, hlt a (by simp), bind, Except.bind, pure, Except.pure]
  have hch : (W.loggedLinks v).reverse.IsChain (fun a b => W.L.startN b = W.L.endN a) := by
    have := C11_path h v
    generalize (W.loggedLinks v).reverse = ls at this
    generalize W.V.orig v = o at this
    induction ls generalizing o with
    | nil => simp
    | cons a ls ih =>
      cases ls with
      | nil => simp
      | cons b ls => exact List.isChain_cons_cons.mpr ⟨this.2.1, ih _ this.2⟩
  have hm := (C40_create h hg _).mpr ⟨rfl, hch⟩
  unfold traveledRoute
  dsimp only
  split
  · rename_i he; rw [List.getLast?_eq_none_iff] at he; exact absurd he hne
  · rw [hm]; exact ⟨_, rfl⟩

/-! ### C12 -/

/-- C12: if the specified route of `v` is `r` from departure on and `r` has no link twice in a row,
then the links entered by `v` are a prefix of `r` at all times. -/
theorem C12_prefix_partial {v : VehId} {r : List LinkId} (hd : r.IsChain (· ≠ ·)) {W : World}
    (h : Reachable (EnforcedOK v r) W) : travelled v W.trace <+: r :=
  (EnfI.reach (fun _ h => h) hd h).1.pre

/-- C12: only another call of `enforce_route` for the same vehicle changes a specified route. -/
theorem C12_stays {W W' : World} (h : Reachable Any W) (hs : ApiStep W W') {v : VehId} {r : List LinkId}
    (hv : v < W.nVeh) (hr : W.V.specRoute v = some r) :
    W'.V.specRoute v = some r ∨ ∃ rs b, W.enforceRoute v rs b = .ok W' := by
  by_cases hE : ∃ rs b, W.enforceRoute v rs b = .ok W'
  · exact .inr hE
  · exact .inl (specRoute_stays h.inv hs hv hr hE)

/-! ### C13, C14 -/

/-- C13: a vehicle without specified route leaves its origin on an allowed link: one that starts at
the node, is preferred if any outgoing link is, and is not to be avoided. -/
theorem C13_depart {W W' : World} (h : Reachable Any W) (hf : W.finalized = true) (ht : W.tick = .ok W')
    {v n l} (he : Event.depart W.T v n l ∈ W'.trace) (hs : W.V.specRoute v = none) : Allowed W v n l :=
  (tick_events h.inv hf (CInv.reach h) ht _ he rfl).2.2.2.1 hs

/-- C13: after a time step, the next link of every vehicle waiting at the end of its link, if it has
one, is an allowed one; it has none only at a dead end. Exempt: taxis whose current destination is the
node they stand at (the code skips the choice for them). -/
theorem C13_choice {W W' : World} (h : Reachable Any W) (hf : W.finalized = true) (ht : W.tick = .ok W')
    {v n} (hv : v ∈ W'.N.incoming n) (hl : W'.V.link v ≠ none) (hs : W'.V.specRoute v = none)
    (hx : W'.V.mode v = .single ∨ W'.V.dest v ≠ some n) :
    (W'.V.rnl v = .none ∧ W'.N.outlinks n = []) ∨ ∃ b, W'.V.rnl v = .to b ∧ Allowed W' v n b := by
  rcases ChI.tick h.inv hf ht n v hv hl with ⟨-, h2, h3⟩ | h2 | ⟨b, h2, h3, -⟩ | ⟨b, route, -, -, h2, -⟩
  · rcases hx with hx | hx
    · rw [h3] at hx; cases hx
    · exact absurd h2 hx
  · exact .inl h2
  · exact .inr ⟨b, h2, (mem_nextCandidates h3).1⟩
  · rw [hs] at h2; cases h2

/-- C13: a vehicle that passes a node was waiting there at the start of the step, and takes the link
chosen before. -/
theorem C13_pass {W W' : World} (h : Reachable Any W) (hf : W.finalized = true) (ht : W.tick = .ok W')
    {v n a b ph} (he : Event.pass W.T v n a b ph ∈ W'.trace) :
    v ∈ W.N.incoming n ∧ W.V.link v = some a ∧ W.V.rnl v = .to b :=
  tick_events h.inv hf (CInv.reach h) ht _ he rfl

/-- C13: over two consecutive steps, a passing vehicle without specified route takes an allowed
link. -/
theorem C13_two_steps {W0 W W' : World} (h : Reachable Any W0) (hf : W0.finalized = true)
    (hn : W0.T < W0.tsize) (h1 : W0.tick = .ok W) (h2 : W.tick = .ok W') {v n a b ph}
    (he : Event.pass W.T v n a b ph ∈ W'.trace) (hs : W.V.specRoute v = none)
    (hx : W.V.mode v = .single ∨ W.V.dest v ≠ some n) : Allowed W v n b := by
  have hr : Reachable Any W := .next h (.tick hf hn h1) trivial
  have hfW : W.finalized = true := by
    obtain ⟨W6, hst, rfl⟩ := tick_static h.inv hf h1
    exact hst.finalized.trans hf
  obtain ⟨hv, hl, hb⟩ := C13_pass hr hfW h2 he
  rcases C13_choice h hf h1 hv (by simp [hl]) hs hx with ⟨h3, -⟩ | ⟨b', h3, h4⟩
  · rw [h3] at hb; cases hb
  · obtain rfl : b' = b := by rw [h3] at hb; simpa using hb
    exact h4

/-- C14: with `no_cyclic_routing`, after a time step, the next link of a waiting non-taxi without
specified route leads to a visited node only if all allowed links do. -/
theorem C14_choice {W W' : World} (h : Reachable Any W) (hf : W.finalized = true) (ht : W.tick = .ok W')
    (hc : W'.cfg.noCyclic = true) {v n b} (hm : W'.V.mode v = .single) (hv : v ∈ W'.N.incoming n)
    (hl : W'.V.link v ≠ none) (hs : W'.V.specRoute v = none) (hb : W'.V.rnl v = .to b)
    (hvis : Visited W' v (W'.L.endN b)) : ∀ k, Allowed W' v n k → Visited W' v (W'.L.endN k) := by
  rcases ChI.tick h.inv hf ht n v hv hl with ⟨-, -, h3⟩ | ⟨h2, -⟩ | ⟨b', h2, h3, -⟩ | ⟨b', route, -, -, h2, -⟩
  · rw [h3] at hm; cases hm
  · rw [h2] at hb; cases hb
  · obtain rfl : b' = b := by rw [h2] at hb; simpa using hb
    exact (mem_nextCandidates h3).2 hc (by rw [hm]; simp) hvis
  · rw [hs] at h2; cases h2

/-- C14: over two consecutive steps, a passing non-taxi without specified route enters a link to a
visited node only if all allowed links lead to visited nodes. -/
theorem C14_two_steps {W0 W W' : World} (h : Reachable Any W0) (hf : W0.finalized = true)
    (hn : W0.T < W0.tsize) (h1 : W0.tick = .ok W) (h2 : W.tick = .ok W') (hc : W.cfg.noCyclic = true)
    {v n a b ph} (he : Event.pass W.T v n a b ph ∈ W'.trace) (hs : W.V.specRoute v = none)
    (hm : W.V.mode v = .single) (hvis : Visited W v (W.L.endN b)) :
    ∀ k, Allowed W v n k → Visited W v (W.L.endN k) := by
  have hr : Reachable Any W := .next h (.tick hf hn h1) trivial
  have hfW : W.finalized = true := by
    obtain ⟨W6, hst, rfl⟩ := tick_static h.inv hf h1
    exact hst.finalized.trans hf
  obtain ⟨hv, hl, hb⟩ := C13_pass hr hfW h2 he
  exact C14_choice h hf h1 hc hm hv (by simp [hl]) hs hb hvis

/-! ### Witnesses -/

/-- A diamond `0 → 1`, `1 → 2` (links 1 and 2), `2 → 3`, two lanes; vehicle 0 prefers link 2, vehicle 1
avoids link 2, vehicle 2 has the specified route `[0, 2, 3]`. -/
def demo4 (k : ℕ) : List Cmd :=
  [.node { name := "a" }, .node { name := "b" }, .node { name := "c" }, .node { name := "d" },
   .link { startN := .obj 0, endN := .obj 1, length := 200, lanes := 2 },
   .link { startN := .obj 1, endN := .obj 2, length := 200 },
   .link { name := some "p", startN := .obj 1, endN := .obj 2, length := 200 },
   .link { startN := .obj 2, endN := .obj 3, length := 200 },
   .veh { orig := .obj 0, dest := some (.obj 3), dep := .step 0, linksPrefer := [.obj 2] },
   .veh { orig := .obj 0, dest := some (.obj 3), dep := .step 0, linksAvoid := [.obj 2] },
   .veh { orig := .obj 0, dest := some (.obj 3), dep := .step 0 },
   .route 2 [.obj 0, .obj 2, .obj 3],
   .fin (some 300)] ++ List.replicate k .tick

set_option maxRecDepth 100000 in
/-- After three steps three vehicles are on link 0; vehicle 2 follows vehicle 0 in lane 0. -/
theorem demo4_lanes : obs (runCmds demoCfg (fun _ => 0) (demo4 3)) (fun W =>
    decide (W.L.vehs 0 = [0, 1, 2] ∧ W.V.lane 0 = 0 ∧ W.V.lane 1 = 1 ∧ W.V.lane 2 = 0 ∧
      W.V.leader 2 = some 0)) = true := by
  decide +kernel

set_option maxRecDepth 100000 in
/-- All three have arrived; preferences, avoidance and the specified route were followed. -/
theorem demo4_routes : obs (runCmds demoCfg (fun _ => 0) (demo4 14)) (fun W =>
    decide (W.V.state 0 = .ended ∧ W.V.state 1 = .ended ∧ W.V.state 2 = .ended ∧
      W.loggedLinks 0 = [3, 2, 0] ∧ W.loggedLinks 1 = [3, 1, 0] ∧ travelled 2 W.trace = [0, 2, 3])) = true := by
  decide +kernel

set_option maxRecDepth 100000 in
/-- Witness for C12: a history in which vehicle 2 has its specified route throughout and travels all
of it. -/
theorem demo4_enforced : ∃ W, Reachable (EnforcedOK 2 [0, 2, 3]) W ∧ travelled 2 W.trace = [0, 2, 3] := by
  have h : obs (runChecked (fun W => decide (W.V.state 2 = .home ∨ W.V.state 2 = .wait ∨
      W.V.specRoute 2 = some [0, 2, 3])) demoCfg (fun _ => 0) (demo4 14)) (fun W => decide (
      travelled 2 W.trace = [0, 2, 3])) = true := by
    decide +kernel
  obtain ⟨W, h1, h2⟩ := obs_ok h
  refine ⟨W, runChecked_reachable (fun W h => ?_) h1, by simpa using h2⟩
  intro h1 h2
  simpa [h1, h2] using h

/-- With `no_cyclic_routing`: at node 1 the vehicle may go back to node 0 or on to node 2. -/
def demo6 (k : ℕ) : List Cmd :=
  [.node { name := "a" }, .node { name := "b" }, .node { name := "c" },
   .link { startN := .obj 0, endN := .obj 1, length := 100 },
   .link { startN := .obj 1, endN := .obj 0, length := 100 },
   .link { startN := .obj 1, endN := .obj 2, length := 100 },
   .veh { orig := .obj 0, dest := some (.obj 2), dep := .step 0 },
   .fin (some 300)] ++ List.replicate k .tick

set_option maxRecDepth 100000 in
/-- The same random numbers lead to different choices with and without the option. -/
theorem demo6_cyclic :
    obs (runCmds { demoCfg with noCyclic := true, dijkstra := fun _ _ => (fun _ _ => some 0, fun _ _ => none) }
      (fun _ => 0) (demo6 8)) (fun W => decide (travelled 0 W.trace = [0, 2])) = true ∧
    obs (runCmds { demoCfg with dijkstra := fun _ _ => (fun _ _ => some 0, fun _ _ => none) }
      (fun _ => 0) (demo6 8)) (fun W => decide (travelled 0 W.trace = [0, 1, 0, 1, 0, 1, 0])) = true := by
  decide +kernel

/-- A loop link at node 1; the specified route uses it twice in a row. -/
def demo5 (k : ℕ) : List Cmd :=
  [.node { name := "a" }, .node { name := "b" }, .node { name := "c" },
   .link { startN := .obj 0, endN := .obj 1, length := 100 },
   .link { startN := .obj 1, endN := .obj 1, length := 100 },
   .link { startN := .obj 1, endN := .obj 2, length := 100 },
   .veh { orig := .obj 0, dest := some (.obj 2), dep := .step 0 },
   .route 0 [.obj 0, .obj 1, .obj 1, .obj 2],
   .fin (some 300)] ++ List.replicate k .tick

set_option maxRecDepth 100000 in
/-- C12 without the restriction on `r` is false of the code: a link used twice in a row is logged
once, the position in the route is counted from the log, and the vehicle goes round for ever. -/
theorem C12_self_loop_false : ∃ W, Reachable Any W ∧ W.V.specRoute 0 = some [0, 1, 1, 2] ∧
    travelled 0 W.trace = [0, 1, 1, 1, 1, 1, 1] := by
  have h : obs (runCmds demoCfg (fun _ => 0) (demo5 8)) (fun W => decide (
      W.V.specRoute 0 = some [0, 1, 1, 2] ∧ travelled 0 W.trace = [0, 1, 1, 1, 1, 1, 1])) = true := by
    decide +kernel
  obtain ⟨W, h1, h2⟩ := obs_ok h
  exact ⟨W, runCmds_reachable h1, by simpa using h2⟩

end UX
