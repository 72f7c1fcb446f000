import Verif.Proofs.CppRowsRun

/-!
# The rows of the vehicle logs of the C++ engine: time steps, runs and reachable worlds
-/

namespace UX.Cpp
open CWorld Relation Spec

/-- After the entry of the time step the flag does not matter. -/
theorem Trk.setFlag {W : CWorld} {r : Prop} {o : ℕ} {V : CVeh} (h : Trk true W r o V) (f : Bool) :
    Trk true W r o { V with flagWait := f } := by
  obtain ⟨h1, h2, h3⟩ := h
  refine ⟨h1, h2, ?_⟩
  cases hs : V.state with
  | run =>
    rw [hs] at h3
    simp only at h3 ⊢
    obtain ⟨l, p1, p2, p3 | p3⟩ := h3
    · exact ⟨l, p1, p2, Or.inl p3⟩
    · simp at p3
  | home => rw [hs] at h3; exact h3
  | wait => rw [hs] at h3; exact h3
  | ended => rw [hs] at h3; exact h3
  | abort => rw [hs] at h3; exact h3

theorem waitEnd_trk {W X : CWorld} {r r' : Prop} {o v l : ℕ} (hm : X.g.logMode = true)
    (hs : (X.veh v).state = .run) (hr : r' → r) (h : Trk true W r o (X.veh v)) :
    Trk true W r' o ((X.waitEnd v l).veh v) := by
  unfold CWorld.waitEnd
  extract_lets W1
  have e1 : W1.veh v = { X.veh v with flagWait := true } := by
    show (X.setV v _).veh v = _
    rw [setV_veh, if_pos rfl]
  have h1 : Trk true W r o (W1.veh v) := by rw [e1]; exact h.setFlag true
  have hs1 : (W1.veh v).state = .run := by rw [e1]; exact hs
  have h2 : Trk true W r' o (W1.veh v) := h1.mono (Tab.refl W) (by simp) hr rfl
  split
  · unfold CWorld.endTrip
    split
    · exact h2
    · obtain ⟨e, s, a1, a2, a3, a4, a5⟩ := endTripOn_row (W := W1) hm v ‹_›
      exact h2.ends hs1 (by simp) a1 _ a2 a3 a4 a5
  · exact h2

theorem atEnd_trk {W X : CWorld} {r r' : Prop} {o v l : ℕ} (hm : X.g.logMode = true)
    (hs : (X.veh v).state = .run) (hr : r' → r) (h : Trk true W r o (X.veh v)) :
    Trk true W r' o ((X.atEnd v l).veh v) := by
  unfold CWorld.atEnd
  split
  · exact waitEnd_trk hm hs hr h
  · split
    · have e1 : ((X.setV v (fun V => { V with flagAbort := true, next := none })).veh v) =
        { X.veh v with flagAbort := true, next := none } := by rw [setV_veh, if_pos rfl]
      refine waitEnd_trk (r := r) (X := X.setV v (fun V => { V with flagAbort := true, next := none })) hm
        (by rw [e1]; exact hs) hr ?_
      rw [e1]
      exact h.mono (Tab.refl W) (by simp) (fun h => h) rfl
    · unfold CWorld.request
      split
      · exact h.mono (Tab.refl W) (by simp) hr rfl
      · refine h.mono (Tab.refl W) (by simp) hr ?_
        rw [setL_veh]; exact setV_mkey _ _ _ (by intro V; rfl) _

theorem waitEnd_mkey_ne (W : CWorld) {v l w : ℕ} (h : w ≠ v) :
    ((W.waitEnd v l).veh w).mkey = (W.veh w).mkey := by
  unfold CWorld.waitEnd
  extract_lets W1
  have e1 : (W1.veh w).mkey = (W.veh w).mkey := by
    show ((W.setV v _).veh w).mkey = _
    rw [setV_veh, if_neg h]
  split
  · unfold CWorld.endTrip
    split
    · exact e1
    · rw [endTripOn_mkey_ne _ h]; exact e1
  · exact e1

theorem atEnd_mkey_ne (W : CWorld) {v l w : ℕ} (h : w ≠ v) :
    ((W.atEnd v l).veh w).mkey = (W.veh w).mkey := by
  unfold CWorld.atEnd
  split
  · exact waitEnd_mkey_ne W h
  · split
    · rw [waitEnd_mkey_ne _ h]; exact setV_mkey _ _ _ (by intro V; rfl) _
    · unfold CWorld.request
      split
      · rfl
      · rw [setL_veh]; exact setV_mkey _ _ _ (by intro V; rfl) _

theorem vehUpdate_mkey_ne (W : CWorld) {v w : ℕ} {s : Option ℕ} (hs : (W.veh v).state = .run) (h : w ≠ v) :
    ((W.vehUpdate v s).veh w).mkey = (W.veh w).mkey := by
  have e0 : ((W.logData v s).veh w).mkey = (W.veh w).mkey := by rw [logData_veh_of_ne _ _ _ _ h]
  have e1 : (((W.logData v s).advance v).veh w).mkey = (W.veh w).mkey := by
    rw [← e0]
    show (((W.logData v s).setV v _).veh w).mkey = _
    rw [setV_veh, if_neg h]
  have hst1 : ((W.logData v s).veh v).state = .run := by rw [core_state (core_logData W v s)]; exact hs
  unfold CWorld.vehUpdate
  simp only [hst1]
  split
  · exact e1
  · split
    · rw [atEnd_mkey_ne _ h]; exact e1
    · exact e1

/-- The update of a vehicle on the road. -/
theorem vehUpdate_trk {b : Bool} {W : CWorld} {v l : ℕ} {s : Option ℕ} {r : Prop} {o : ℕ}
    (hm : W.g.logMode = true) (hfl : W.g.fl = id) (hdt : W.g.deltaT ≠ 0)
    (hs : (W.veh v).state = .run) (hl : (W.veh v).link = some l) (hlen : ((W.logData v s).link l).len = (W.link l).len)
    (hno : ¬ Req ((W.logData v s).advance v) v)
    (h : Trk b W r o (W.veh v)) : Trk true W (Req (W.vehUpdate v s) v) o ((W.vehUpdate v s).veh v) := by
  obtain ⟨e, e1, e2, e3⟩ := logData_entry hm v s
  rw [if_pos hs, hl] at e1
  obtain ⟨hx, hv, hla⟩ := e2 hs
  have hst1 : ((W.logData v s).veh v).state = .run := by rw [core_state (core_logData W v s)]; exact hs
  have hg1 : (W.logData v s).g = W.g := (samePar_logData W v s).2
  have hg : ((W.logData v s).advance v).g = W.g := hg1
  have hV1 : (W.logData v s).veh v = pushed W.g.timestep e (W.veh v) := by rw [e3, if_pos rfl]
  have hV2 : ((W.logData v s).advance v).veh v = { pushed W.g.timestep e (W.veh v) with
      v := ((W.veh v).xNext - (W.veh v).x) / W.g.deltaT, xOld := (W.veh v).x, x := (W.veh v).xNext
      dist := (W.veh v).dist + ((W.veh v).xNext - (W.veh v).x) } := by
    show ((W.logData v s).setV v _).veh v = _
    rw [setV_veh, if_pos rfl, hV1, hg1, hfl]
    rfl
  have key : Trk true W (|(W.veh v).xNext - (W.link l).len| < 1 / 1000000000) o
      (((W.logData v s).advance v).veh v) :=
    h.drive hdt hs hl e1 hx hv hla (by rw [hV2]) (fun h => h)
  have hs2 : (((W.logData v s).advance v).veh v).state = .run := by rw [hV2]; exact hs
  have hl2 : (((W.logData v s).advance v).veh v).link = some l := by rw [hV2]; exact hl
  have hx2 : (((W.logData v s).advance v).veh v).x = (W.veh v).xNext := by rw [hV2]
  have hlen2 : (((W.logData v s).advance v).link l).len = (W.link l).len := hlen
  have step : ∀ r', (W.vehUpdate v s) =
      (if |(W.veh v).xNext - (W.link l).len| < 1 / 1000000000 then ((W.logData v s).advance v).atEnd v l
        else (W.logData v s).advance v) ∧ r' = Req (W.vehUpdate v s) v →
      Trk true W r' o ((W.vehUpdate v s).veh v) := fun r' hh => by
    obtain ⟨hh, rfl⟩ := hh
    by_cases hn : |(W.veh v).xNext - (W.link l).len| < 1 / 1000000000
    · rw [if_pos hn] at hh
      rw [hh]
      exact atEnd_trk (by rw [hg]; exact hm) hs2 (fun _ => hn) key
    · rw [if_neg hn] at hh
      rw [hh]
      exact key.mono (Tab.refl W) (by simp) (fun hr => absurd hr hno) rfl
  refine step _ ⟨?_, rfl⟩
  unfold CWorld.vehUpdate
  simp only [hst1, hl2, hx2, hlen2, hg, hfl, id]

theorem rowRule : PassRule (RowP false) (RowP true) where
  update W l w h := h.key ⟨rfl, fun _ => rfl, fun m => by
      unfold CWorld.linkUpdate; rw [setL_link]; split
      · rename_i e; subst e; rfl
      · rfl, fun _ => rfl, fun _ _ => rfl, fun _ h => h⟩
    (Req.of_eq (fun m => by
      unfold CWorld.linkUpdate; rw [setL_link]; split
      · rename_i e; subst e; rfl
      · rfl) (fun _ h => h)) rfl
  act s W W' hs a w h := h.act hs a w
  run W v l s i hinc hv hna h := by
    refine h.upd (i.vehRun (s := s) hinc hv hna).keep (fun _ t => ?_)
    have hc : (W.logData v s).core = W.core := core_logData W v s
    refine vehUpdate_trk h.2.2.1 h.1 h.2.1 (i.mem l v hv).2.1 (i.mem l v hv).1 ?_ ?_ t
    · exact (samePar_logData W v s).1.len l
    · rintro (⟨m, hm⟩ | ⟨n, hn⟩)
      · have hm' : v ∈ ((W.logData v s).link m).arrived := hm
        rw [core_arrived hc] at hm'
        exact hna m hm'
      · have hn' : v ∈ ((W.logData v s).node n).incoming := hn
        rw [core_incoming hc, hinc] at hn'
        simp at hn'
  runP W v l s i hinc hv hna w hw h := by
    have p := i.vehRun (s := s) hinc hv hna
    refine h.key p.keep ?_ (vehUpdate_mkey_ne W (i.mem l v hv).2.1 hw)
    rintro (⟨m, hm⟩ | ⟨n, hn⟩)
    · by_contra hc
      exact p.arr w hw m (fun h => hc (Or.inl ⟨m, h⟩)) hm
    · rw [p.inc] at hn; simp at hn
  runQ W v l s i hinc hv hna w hw h := by
    have p := i.vehRun (s := s) hinc hv hna
    refine h.key p.keep ?_ (vehUpdate_mkey_ne W (i.mem l v hv).2.1 hw)
    rintro (⟨m, hm⟩ | ⟨n, hn⟩)
    · by_contra hc
      exact p.arr w hw m (fun h => hc (Or.inl ⟨m, h⟩)) hm
    · rw [p.inc] at hn; simp at hn
  wait W v hs h := by
    obtain ⟨e, e1, e2⟩ := logData_pushed h.2.2.1 v none
    have he : e.link = none := by rw [e1, hs]; rfl
    refine h.upd (Keep.logData W v none (by rw [hs]; simp)) (fun _ t => ?_)
    refine t.waits (Or.inl hs) he W.g.timestep (s := .wait) (Or.inl rfl) ?_
    rw [e2, if_pos rfl]
    have : (pushed W.g.timestep e (W.veh v)) = { pushed W.g.timestep e (W.veh v) with state := .wait } := by
      rw [← hs]; rfl
    rw [this]
  waitP W v w hw h := by
    have hc : (W.logData v none).core = W.core := core_logData W v none
    have s := samePar_logData W v none
    obtain ⟨h1, h2, h3, h4⟩ := h
    refine ⟨by rw [s.2]; exact h1, by rw [s.2]; exact h2, by rw [s.2]; exact h3, fun hw' => ?_⟩
    rw [s.2] at hw'
    have hv := logData_veh_of_ne W v w none hw
    rw [hv]
    refine (h4 hw').mono ⟨by rw [s.2], by rw [s.2], by rw [s.2], fun l _ => s.1.src l, fun l _ => s.1.dst l,
      fun l _ => s.1.len l⟩ (fun _ => by rw [s.2]) (Req.of_eq (fun m => core_arrived hc m)
        (fun n hn => by rw [core_incoming hc] at hn; exact hn)) rfl
  waitQ W v w hw h := by
    have hc : (W.logData v none).core = W.core := core_logData W v none
    have s := samePar_logData W v none
    obtain ⟨h1, h2, h3, h4⟩ := h
    refine ⟨by rw [s.2]; exact h1, by rw [s.2]; exact h2, by rw [s.2]; exact h3, fun hw' => ?_⟩
    rw [s.2] at hw'
    have hv := logData_veh_of_ne W v w none hw
    rw [hv]
    refine (h4 hw').mono ⟨by rw [s.2], by rw [s.2], by rw [s.2], fun l _ => s.1.src l, fun l _ => s.1.dst l,
      fun l _ => s.1.len l⟩ (fun _ => by rw [s.2]) (Req.of_eq (fun m => core_arrived hc m)
        (fun n hn => by rw [core_incoming hc] at hn; exact hn)) rfl

/-! ## Time steps -/

theorem Trk.weaken {W : CWorld} {r : Prop} {o : ℕ} {V : CVeh} (h : Trk true W r o V) : Trk false W r o V := by
  obtain ⟨h1, h2, h3⟩ := h
  refine ⟨h1, h2, ?_⟩
  cases hs : V.state with
  | run =>
    rw [hs] at h3
    simp only at h3 ⊢
    obtain ⟨l, p1, p2, p3 | p3⟩ := h3
    · exact ⟨l, p1, p2, Or.inl p3⟩
    · simp at p3
  | home => rw [hs] at h3; exact h3
  | wait => rw [hs] at h3; exact h3
  | ended => rw [hs] at h3; exact h3
  | abort => rw [hs] at h3; exact h3

theorem Trk.idle {W : CWorld} {r : Prop} {o : ℕ} {V : CVeh} (h : Trk false W r o V) (hr : V.state ≠ .run) :
    Trk true W r o V := by
  obtain ⟨h1, h2, h3⟩ := h
  refine ⟨h1, h2, ?_⟩
  cases hs : V.state with
  | run => exact absurd hs hr
  | home => rw [hs] at h3; exact h3
  | wait => rw [hs] at h3; exact h3
  | ended => rw [hs] at h3; exact h3
  | abort => rw [hs] at h3; exact h3

theorem SamePar.tab {W W' : CWorld} (s : SamePar W W') (hn : W'.g.nLinks = W.g.nLinks) (hf : W'.g.fl = W.g.fl)
    (hd : W'.g.deltaT = W.g.deltaT) : Tab W W' :=
  ⟨by rw [hn], hf, hd, fun l _ => s.src l, fun l _ => s.dst l, fun l _ => s.len l⟩

/-- What a serial part of the program leaves. -/
theorem RowP.serial {W W' : CWorld} {w : ℕ} (h : RowP true W w) (t : Tab W W')
    (hl : W'.g.logMode = W.g.logMode) (hn : W'.g.nVehs = W.g.nVehs) (ho : (W'.veh w).orig = (W.veh w).orig)
    (hr : Req W' w → Req W w) (hk : (W'.veh w).mkey = (W.veh w).mkey) : RowP true W' w := by
  obtain ⟨h1, h2, h3, h4⟩ := h
  refine ⟨by rw [t.fl]; exact h1, by rw [t.dt]; exact h2, by rw [hl]; exact h3, fun hw => ?_⟩
  rw [hn] at hw
  rw [ho]
  exact (h4 hw).mono t (by simp) hr hk

theorem homeVeh_trk {W : CWorld} {v : ℕ} (r : Rest W) (hv : v < W.g.nVehs) (hs : (W.veh v).state = .home)
    (hd : (W.veh v).depTime ≤ W.now) (w : ℕ) (h : RowP true W w) : RowP true (W.vehUpdate v none) w := by
  obtain ⟨p, q, g, e⟩ := r.homeVeh hv hs
  obtain ⟨h0, h1, h2, h3⟩ := h
  have t : Tab W (W.vehUpdate v none) := q.tab (by rw [g]) (by rw [g]) (by rw [g])
  by_cases hw : w = v
  · subst hw
    refine ⟨by rw [g]; exact h0, by rw [g]; exact h1, by rw [g]; exact h2, fun _ => ?_⟩
    rw [q.orig]
    obtain ⟨a, e1, e2⟩ := logData_pushed h2 w none
    have he : a.link = none := by rw [e1, hs]; rfl
    have hst : ((W.logData w none).veh w).state = .home := by rw [core_state (core_logData W w none)]; exact hs
    have f2 : ((W.logData w none).veh w).depTime = (W.veh w).depTime := (samePar_logData W w none).1.depTime w
    have f3 : (W.logData w none).now = W.now := by unfold now; rw [(samePar_logData W w none).2]
    have k1 : Trk true W (Req (W.vehUpdate w none) w) (W.veh w).orig ((W.vehUpdate w none).veh w) := by
      refine (h3 hv).waits (Or.inr hs) he W.g.timestep (s := .wait) (Or.inl rfl) ?_
      unfold CWorld.vehUpdate
      simp only [hst]
      rw [if_pos (by rw [f2, f3]; exact hd), setN_veh, setV_veh, if_pos rfl]
      have e3 := e2 w
      rw [if_pos rfl] at e3
      have e4 : ∀ V V' : CVeh, V = V' → CVeh.mkey { V with state := .wait } = CVeh.mkey { V' with state := .wait } :=
        fun V V' h => by rw [h]
      exact e4 _ _ e3
    exact k1.mono t (by simp) (fun h => h) rfl
  · refine RowP.serial ⟨h0, h1, h2, h3⟩ t (by rw [g]) (by rw [g]) (q.orig w) ?_ (by rw [e w hw])
    have hst : ((W.logData v none).veh v).state = .home := by rw [core_state (core_logData W v none)]; exact hs
    have f2 : ((W.logData v none).veh v).depTime = (W.veh v).depTime := (samePar_logData W v none).1.depTime v
    have f3 : (W.logData v none).now = W.now := by unfold now; rw [(samePar_logData W v none).2]
    have hc := core_logData W v none
    refine Req.of_eq (fun m => ?_) (fun n hn => ?_)
    · unfold CWorld.vehUpdate
      simp only [hst]
      rw [if_pos (by rw [f2, f3]; exact hd), setN_link, setV_link]
      exact core_arrived hc m
    · rw [p.inc] at hn; simp at hn

theorem homePass_rows (xs : List ℕ) (hnd : xs.Nodup) {W : CWorld} (r : Rest W)
    (hx : ∀ v ∈ xs, v < W.g.nVehs ∧ (W.veh v).state = .home) (hd : ∀ v ∈ xs, (W.veh v).depTime ≤ W.now)
    (h : ∀ v, RowP true W v) :
    (∀ v, RowP true (xs.foldl (fun W v => W.vehUpdate v none) W) v) ∧
      Rest (xs.foldl (fun W v => W.vehUpdate v none) W) := by
  induction xs generalizing W with
  | nil => exact ⟨h, r⟩
  | cons v t ih =>
    obtain ⟨hv, ht⟩ := List.nodup_cons.1 hnd
    obtain ⟨p, q, g, e⟩ := r.homeVeh (hx v (by simp)).1 (hx v (by simp)).2
    have hne : ∀ w ∈ t, w ≠ v := fun w hw h => hv (h ▸ hw)
    exact ih ht p (fun w hw => by rw [g, e w (hne w hw)]; exact hx w (by simp [hw]))
      (fun w hw => by
        have := hd w (by simp [hw])
        rw [e w (hne w hw)]; unfold now; rw [g]; exact this)
      (fun w => homeVeh_trk r (hx v (by simp)).1 (hx v (by simp)).2 (hd v (by simp)) w (h w))

/-- A completed time step. -/
theorem step_rows {W : CWorld} (r : Rest W) {σ : Sched} (hσ : σ.Valid W) {home : List ℕ}
    (hnd : home.Nodup) (hh : ∀ v ∈ home, v < W.g.nVehs ∧ (W.veh v).state = .home)
    (hd : ∀ v ∈ home, (W.veh v).depTime ≤ W.now) {W' : CWorld}
    (he : CWorld.stepWith σ home W = (W', none)) (h : ∀ v, RowP false W v) (v : ℕ) : RowP true W' v := by
  have hrun : σ.run.Nodup := hσ.2.2.2.1.nodup_iff.2 List.nodup_range
  have r0 : Rest W.clearExc := r.congr (core_clearExc W).symm
  obtain ⟨r1, k1⟩ := r0.region σ hrun
  have kk := (Keep.clearExc W).trans k1
  have reg := rowRule.region r0 (σ := σ) hσ (fun w => (h w).key (Keep.clearExc W)
    (Req.of_eq (fun _ => rfl) (fun _ h => h)) rfl)
  unfold CWorld.stepWith at he
  simp only at he
  generalize hW6 : CWorld.region σ W.clearExc = W6 at *
  split at he
  · simp at he
  rename_i hex
  have reg' := reg (fun l hl => firstExc_none hex l (by rw [kk.g]; exact hl))
  have hx : ∀ v ∈ home, v < W6.g.nVehs ∧ (W6.veh v).state = .home := fun v hv => by
    rw [kk.g, kk.home v (hh v hv).2]; exact hh v hv
  have hQ : ∀ w, RowP true W6 w := fun w => by
    obtain ⟨a, b⟩ := reg' w
    by_cases hw : w < W6.g.nVehs
    · by_cases hst : (W6.veh w).state = .run ∨ (W6.veh w).state = .wait
      · exact a (by rw [← show W6.g.nVehs = W.clearExc.g.nVehs by rw [k1.g]]; exact hw) hst
      · rcases b with ⟨b1, b2, b3, b4⟩ | b
        · exact ⟨b1, b2, b3, fun _ => (b4 hw).idle (fun h => hst (Or.inl h))⟩
        · exact b
    · rcases b with ⟨b1, b2, b3, b4⟩ | b
      · exact ⟨b1, b2, b3, fun h => absurd h hw⟩
      · exact b
  obtain ⟨a, r7⟩ := homePass_rows home hnd r1 hx (fun v hv => by
    have := hd v hv
    rw [kk.home v (hh v hv).2]; unfold now; rw [kk.g]; exact this) hQ
  obtain rfl := congrArg Prod.fst he
  simp only at a r7 ⊢
  generalize home.foldl (fun (W : CWorld) v => W.vehUpdate v none) W6 = W7 at *
  have hf := routeStep_fix W7.reconcile
  obtain ⟨sp, hv, hn, _, hnl, ht, _, hno, hco⟩ := routeStep_same W7.reconcile
  have sr : SamePar W7 W7.reconcile := by
    refine ⟨fun n => ?_, fun l => ?_, fun _ => rfl⟩
    · simp only [CWorld.reconcile]; split <;> rfl
    · simp only [CWorld.reconcile]; split <;> rfl
  have t1 : Tab W7 W7.reconcile := sr.tab rfl rfl rfl
  have h8 : RowP true W7.reconcile v := (a v).serial t1 rfl rfl rfl
    (Req.of_eq (fun m => by simp only [CWorld.reconcile]; split <;> rfl)
      (fun n hn => by
        simp only [CWorld.reconcile] at hn
        split at hn
        · exact hn
        · exact hn)) rfl
  refine h8.serial (sp.tab hnl (CGlob.fix_fl hf) (CGlob.fix_deltaT hf)) (CGlob.fix_logMode hf) hn (by rw [hv])
    (Req.of_eq (fun m => ?_) (fun n hn => by rw [hno] at hn; exact hn)) (by rw [hv])
  show (W7.reconcile.routeStep.link m).core.arrived = (W7.reconcile.link m).core.arrived
  rw [hco]

theorem loop_rows {sched : ℕ → CWorld → Sched} (hs : ∀ t V, (sched t V).Valid V)
    {b : ℕ → List ℕ} (hb : ∀ t, (b t).Nodup) (hd : ∀ s t v, s ≠ t → v ∈ b s → v ∉ b t) (k : ℕ)
    {W W' : CWorld} (r : Rest W)
    (hh : ∀ t, W.g.timestep ≤ t → ∀ v ∈ b t, v < W.g.nVehs ∧ (W.veh v).state = .home)
    (hdue : ∀ t, W.g.timestep ≤ t → t < W.g.timestep + k → ∀ v ∈ b t, (W.veh v).depTime ≤ clockAt W t)
    (hW : CWorld.loopFrom sched b k W = (W', none)) (h : ∀ v, RowP true W v) (v : ℕ) : RowP true W' v := by
  induction k generalizing W with
  | zero =>
    rw [CWorld.loopFrom] at hW
    obtain rfl := congrArg Prod.fst hW
    exact h v
  | succ k ih =>
    have hva := hs W.g.timestep W
    have hns : (sched W.g.timestep W).run.Nodup := hva.2.2.2.1.nodup_iff.2 List.nodup_range
    obtain ⟨r1, k1⟩ := r.stepWith (sched W.g.timestep W) hns (b W.g.timestep) (hb _) (hh _ le_rfl)
    obtain ⟨k2, _⟩ := r.stepWith2 (sched W.g.timestep W) hns (b W.g.timestep) (hb _) (hh _ le_rfl)
    rw [CWorld.loopFrom] at hW
    cases he : CWorld.stepWith (sched W.g.timestep W) (b W.g.timestep) W with
    | mk W1 e =>
      rw [he] at r1 k1 k2 hW
      simp only at r1 k1 k2 hW
      cases e with
      | some e => simp at hW
      | none =>
        simp only at hW
        have h1 := step_rows r hva (hb _) (hh _ le_rfl) (hdue _ le_rfl (by omega)) he (fun v =>
          ⟨(h v).1, (h v).2.1, (h v).2.2.1, fun hv => ((h v).2.2.2 hv).weaken⟩)
        have hh1 : ∀ t, W.g.timestep + 1 ≤ t → ∀ v ∈ b t, v < W1.g.nVehs ∧ (W1.veh v).state = .home := by
          intro t ht v hv
          obtain ⟨p, q⟩ := hh t (by omega) v hv
          have hv' := k1.home v (fun h => hd _ _ v (by omega) h hv) q
          exact ⟨by rw [k1.nVehs]; exact p, by rw [hv']; exact q⟩
        have hck : ∀ t, clockAt W1 t = clockAt W t := fun t => by
          unfold clockAt; rw [CGlob.fix_fl k2.fix, CGlob.fix_deltaT k2.fix]
        refine ih (W := { W1 with g := { W1.g with timestep := W.g.timestep + 1 } })
          (r1.setG _ rfl rfl rfl rfl rfl) hh1 ?_ hW (fun v => (h1 v).serial
            ⟨le_rfl, rfl, rfl, fun _ _ => rfl, fun _ _ => rfl, fun _ _ => rfl⟩ rfl rfl rfl (fun h => h) rfl)
        intro t ht ht' v hv
        have hdep : (W1.veh v).depTime = (W.veh v).depTime := k1.par.depTime v
        show (W1.veh v).depTime ≤ clockAt W1 t
        rw [hdep, hck]
        refine hdue t ?_ ?_ v hv
        · have : W.g.timestep + 1 ≤ t := ht
          omega
        · have : t < W.g.timestep + 1 + k := ht'
          omega

/-- The rows of all vehicles are right. -/
def AllRows (W : CWorld) : Prop :=
  W.g.logMode = true → W.g.fl = id → 0 < W.g.deltaT → ∀ v, RowP true W v

theorem main_rows {sched : ℕ → CWorld → Sched} (hs : ∀ t V, (sched t V).Valid V) {W W' : CWorld}
    (r : Rest W) {endTs : ℕ} (hr : W.mainLoop sched endTs = (W', none)) (h : AllRows W) : AllRows W' := by
  obtain ⟨k, ht⟩ := mainLoop_keep r (fun t V _ => (hs t V).2.2.2.1.nodup_iff.2 List.nodup_range) hr
  intro hl hfl hdt v
  rw [CGlob.fix_logMode k.fix] at hl
  rw [CGlob.fix_fl k.fix] at hfl
  rw [CGlob.fix_deltaT k.fix] at hdt
  refine loop_rows hs (fun t => bucket_nodup W _ t) (fun s t v hne h h' =>
    hne ((mem_bucket.1 h).2.2.symm.trans (mem_bucket.1 h').2.2)) _ r (fun t _ v hv =>
    ⟨(mem_bucket.1 hv).1, (mem_bucket.1 hv).2.1⟩) (fun t h1 h2 v hv =>
      bucket_due (by rw [hfl]; exact monotone_id) hdt.le hv (by omega)) hr (h hl hfl hdt) v

theorem AllRows.call {W W' : CWorld} (h : AllRows W) (t : Tab W W') (hl : W'.g.logMode = W.g.logMode)
    (hn : W'.g.nVehs = W.g.nVehs) (ho : ∀ v, (W'.veh v).orig = (W.veh v).orig)
    (hr : ∀ v, Req W' v → Req W v) (hk : ∀ v, (W'.veh v).mkey = (W.veh v).mkey) : AllRows W' :=
  fun h1 h2 h3 v => (h (by rw [← hl]; exact h1) (by rw [← t.fl]; exact h2) (by rw [← t.dt]; exact h3) v).serial
    t hl hn (ho v) (hr v) (hk v)

/-- The rows of the vehicle logs of every world that arises by calls that do not throw. -/
theorem Spec.CleanReach.rows {W : CWorld} (h : CleanReach W) : AllRows W := by
  induction h with
  | empty => exact fun h1 h2 h3 v => ⟨h2, h3.ne', h1, fun hv => absurd hv (Nat.not_lt_zero v)⟩
  | @step W W' hr s ih =>
    have hreach := hr.toReach
    have hinc := (hreach.step s.toStep).rest.inc
    cases s with
    | node W' ints off cap lanes rng fuel h =>
      unfold CWorld.addNode at h
      obtain ⟨q, _, rfl⟩ := Option.map_eq_some_iff.1 h
      refine ih.call ⟨le_rfl, rfl, rfl, fun _ _ => rfl, fun _ _ => rfl, fun _ _ => rfl⟩ rfl rfl (fun _ => rfl)
        (fun v => ?_) (fun _ => rfl)
      rintro (⟨m, hm⟩ | ⟨n, hn⟩)
      · exact Or.inl ⟨m, hm⟩
      · rw [hinc] at hn; simp at hn
    | link src dst a hs hd' hl hr =>
      have hlk : ∀ l, l < W.g.nLinks → ((W.addLink src dst a).link l) = W.link l := fun l hl => by
        show (upd W.link W.g.nLinks _) l = _
        rw [upd, if_neg (by omega)]
      refine ih.call ⟨Nat.le_succ _, rfl, rfl, fun l hl => by rw [hlk l hl],
        fun l hl => by rw [hlk l hl], fun l hl => by rw [hlk l hl]⟩ rfl rfl (fun _ => rfl) (fun v => ?_) (fun _ => rfl)
      rintro (⟨m, hm⟩ | ⟨n, hn⟩)
      · by_cases e : m = W.g.nLinks
        · exfalso
          have hm' : v ∈ ((upd W.link W.g.nLinks (newLink W src dst a)) m).arrived := hm
          rw [upd, if_pos e] at hm'
          simp [newLink] at hm'
        · refine Or.inl ⟨m, ?_⟩
          have hm' : v ∈ ((upd W.link W.g.nLinks (newLink W src dst a)) m).arrived := hm
          rw [upd, if_neg e] at hm'
          exact hm'
      · rw [hinc] at hn; simp at hn
    | vehicle dep orig dest prefer ho hd' =>
      intro h1 h2 h3 v
      by_cases e : v = W.g.nVehs
      · refine ⟨h2, h3.ne', h1, fun _ => ?_⟩
        show Trk true _ _ _ ((upd W.veh W.g.nVehs (newVeh dep orig dest prefer)) v)
        rw [upd, if_pos e]
        refine ⟨?_, rfl, ?_⟩
        · intro i a b h
          simp [newVeh] at h
        · exact ⟨by simp [newVeh], rfl, rfl⟩
      · have hv : (W.addVehicle dep orig dest prefer).veh v = W.veh v := by
          show (upd W.veh W.g.nVehs (newVeh dep orig dest prefer)) v = _
          rw [upd, if_neg e]
        obtain ⟨a1, a2, a3, a4⟩ := ih h1 h2 h3 v
        refine ⟨h2, h3.ne', h1, fun hlt => ?_⟩
        have hlt' : v < W.g.nVehs + 1 := hlt
        rw [hv]
        exact (a4 (by omega)).mono ⟨le_rfl, rfl, rfl, fun _ _ => rfl, fun _ _ => rfl, fun _ _ => rfl⟩ (by simp)
          (fun h => h) rfl
    | tmax t h =>
      have hlk : ∀ l, ((W.setTMax t).link l).src = (W.link l).src ∧ ((W.setTMax t).link l).dst = (W.link l).dst ∧
          ((W.setTMax t).link l).len = (W.link l).len ∧
          ((W.setTMax t).link l).arrived = (W.link l).arrived := fun l => by
        simp only [CWorld.setTMax]; split <;> exact ⟨rfl, rfl, rfl, rfl⟩
      exact ih.call (W' := W.setTMax t) ⟨le_rfl, rfl, rfl, fun l _ => (hlk l).1, fun l _ => (hlk l).2.1,
        fun l _ => (hlk l).2.2.1⟩ rfl rfl (fun _ => rfl)
        (fun _ => Req.of_eq (fun m => (hlk m).2.2.2) (fun _ h => h)) (fun _ => rfl)
    | init =>
      obtain ⟨a1, a2, a3, a4, a5⟩ := initAdj_same W
      refine ih.call ⟨by rw [CGlob.fix_nLinks a3], CGlob.fix_fl a3, CGlob.fix_deltaT a3, fun l _ => by rw [a2], fun l _ => by rw [a2],
        fun l _ => by rw [a2]⟩ (CGlob.fix_logMode a3) (CGlob.fix_nVehs a3) (fun v => by rw [a1]) (fun v => ?_)
        (fun v => by rw [a1])
      rintro (⟨m, hm⟩ | ⟨n, hn⟩)
      · exact Or.inl ⟨m, by rw [a2] at hm; exact hm⟩
      · rw [hinc] at hn; simp at hn
    | edit e =>
      have hg : (W.edit e).g = W.g := edit_g W e
      have hv : ∀ v, ((W.edit e).veh v).mkey = (W.veh v).mkey ∧ ((W.edit e).veh v).orig = (W.veh v).orig := by
        intro v
        cases e <;> first
          | exact ⟨rfl, rfl⟩
          | (simp only [CWorld.edit]; rw [setV_veh]; split
             · rename_i e; subst e; exact ⟨rfl, rfl⟩
             · exact ⟨rfl, rfl⟩)
          | (simp only [CWorld.edit, changeFreeFlow, changeJam]; split <;> exact ⟨rfl, rfl⟩)
      have hlk : ∀ l, ((W.edit e).link l).src = (W.link l).src ∧ ((W.edit e).link l).dst = (W.link l).dst ∧
          ((W.edit e).link l).len = (W.link l).len ∧ ((W.edit e).link l).arrived = (W.link l).arrived := by
        intro l
        cases e <;> first
          | exact ⟨rfl, rfl, rfl, rfl⟩
          | (simp only [CWorld.edit]; rw [setL_link]; split
             · rename_i e; subst e; exact ⟨rfl, rfl, rfl, rfl⟩
             · exact ⟨rfl, rfl, rfl, rfl⟩)
          | (simp only [CWorld.edit, changeFreeFlow, changeJam]; split
             · rw [setL_link]; split
               · rename_i e; subst e; exact ⟨rfl, rfl, rfl, rfl⟩
               · exact ⟨rfl, rfl, rfl, rfl⟩
             · exact ⟨rfl, rfl, rfl, rfl⟩)
      refine ih.call ⟨by rw [hg], by rw [hg], by rw [hg], fun l _ => (hlk l).1, fun l _ => (hlk l).2.1,
        fun l _ => (hlk l).2.2.1⟩ (by rw [hg]) (by rw [hg]) (fun v => (hv v).2) (fun v => ?_) (fun v => (hv v).1)
      rintro (⟨m, hm⟩ | ⟨n, hn⟩)
      · exact Or.inl ⟨m, by rw [(hlk m).2.2.2] at hm; exact hm⟩
      · rw [hinc] at hn; simp at hn
    | run W' endTs sched hs h => exact main_rows hs hreach.rest h ih

end UX.Cpp
