import Verif.Proofs.CppRowsMove

/-!
# The rows of the vehicle logs of the C++ engine: actions
-/

namespace UX.Cpp
open CWorld Relation Spec

/-- The rule for rows: before and after the entry of the present time step. -/
def RowP (b : Bool) (W : CWorld) (w : ℕ) : Prop :=
  W.g.fl = id ∧ W.g.deltaT ≠ 0 ∧ W.g.logMode = true ∧
    (w < W.g.nVehs → Trk b W (Req W w) (W.veh w).orig (W.veh w))

theorem RowP.upd {b b' : Bool} {W W' : CWorld} {w : ℕ} (h : RowP b W w) (k : Keep W W')
    (f : w < W.g.nVehs → Trk b W (Req W w) (W.veh w).orig (W.veh w) →
      Trk b' W (Req W' w) (W.veh w).orig (W'.veh w)) : RowP b' W' w := by
  obtain ⟨h1, h2, h3, h4⟩ := h
  refine ⟨by rw [k.g]; exact h1, by rw [k.g]; exact h2, by rw [k.g]; exact h3, fun hw => ?_⟩
  rw [k.g] at hw
  rw [k.orig]
  exact (f hw (h4 hw)).mono k.tab (fun _ => by rw [k.g]) (fun h => h) rfl

theorem RowP.key {b : Bool} {W W' : CWorld} {w : ℕ} (h : RowP b W w) (k : Keep W W')
    (hr : Req W' w → Req W w) (hk : (W'.veh w).mkey = (W.veh w).mkey) : RowP b W' w :=
  h.upd k (fun _ t => t.mono (Tab.refl W) (fun _ => rfl) hr hk)

theorem setV_mkey (W : CWorld) (v : ℕ) (f : CVeh → CVeh) (h : ∀ V, (f V).mkey = V.mkey) (w : ℕ) :
    ((W.setV v f).veh w).mkey = (W.veh w).mkey := by
  rw [setV_veh]; split
  · rename_i e; subst e; exact h _
  · rfl

/-- `log_data` appends the entry of the moment. -/
theorem logData_entry {W : CWorld} (hm : W.g.logMode = true) (v : ℕ) (s : Option ℕ) :
    ∃ e : CLog, (e.link = if (W.veh v).state = .run then (W.veh v).link else none) ∧
      ((W.veh v).state = .run → e.x = (W.veh v).x ∧ e.v = (W.veh v).v ∧ e.lane = (W.veh v).lane) ∧
      ∀ w, (W.logData v s).veh w = if w = v then pushed W.g.timestep e (W.veh w) else W.veh w := by
  refine ⟨(W.logStats v).logEntry v s, by rw [logEntry_link, logStats_veh], fun hs => ?_, fun w => ?_⟩
  · unfold logEntry
    rw [logStats_veh, if_pos hs]
    exact ⟨rfl, rfl, rfl⟩
  · unfold logData logPush
    rw [logStats_g, hm, if_pos rfl, setV_veh, logStats_veh]
    split
    · rename_i h; subst h
      rfl
    · rfl

/-- The end of a trip. -/
theorem endTripOn_row {W : CWorld} (hm : W.g.logMode = true) (v l : ℕ) :
    ∃ (e : CLog) (s : VState), e.link = none ∧
      (((W.endTripOn v l).veh v).state = .ended ∨ ((W.endTripOn v l).veh v).state = .abort) ∧
      ((W.endTripOn v l).veh v).log = (W.veh v).log ++ [e] ∧
      ((W.endTripOn v l).veh v).count = (W.veh v).count ∧
      ((W.endTripOn v l).veh v).eager = (W.veh v).eager ++ [(W.g.timestep, s)] := by
  unfold CWorld.endTripOn
  extract_lets W1 W2 W3
  have hg : W3.g = W.g := by
    show W2.g = W.g
    exact detach_g _ _
  obtain ⟨e, e1, e2⟩ := logData_pushed (W := W3) (by rw [hg]; exact hm) v none
  rw [e2, if_pos rfl, hg]
  have e3 : W3.veh v = { W2.veh v with
      state := if (W2.veh v).flagAbort then .abort else .ended
      arrTimeLink := W.now
      arrivalTime := if (W2.veh v).flagAbort then -1 else W.now
      travelTime := if (W2.veh v).flagAbort then -1 else W.g.fl (W.now - (W2.veh v).depTime)
      link := none, x := 0, flagWait := false } := by
    show (W2.setV v _).veh v = _
    rw [setV_veh, if_pos rfl]
  have e4 : (W2.veh v).mkey = (W.veh v).mkey := by
    show ((W1.detach v).veh v).mkey = _
    rw [detach_veh]; rfl
  have f7 : (W2.veh v).log = (W.veh v).log := congrArg (fun p => p.2.1) e4
  have f9 : (W2.veh v).count = (W.veh v).count := congrArg (fun p => p.2.2.2.1) e4
  have f11 : (W2.veh v).eager = (W.veh v).eager := congrArg (fun p => p.2.2.2.2.2.1) e4
  have e5 : (if (W2.veh v).flagAbort = true then VState.abort else VState.ended) = .ended ∨
      (if (W2.veh v).flagAbort = true then VState.abort else VState.ended) = .abort := by
    by_cases hb : (W2.veh v).flagAbort = true
    · exact Or.inr (if_pos hb)
    · exact Or.inl (if_neg hb)
  have e6 : (W3.veh v).link = none := by rw [e3]
  refine ⟨e, (W3.veh v).state, by rw [e1, e6]; split <;> rfl, ?_, ?_, ?_, ?_⟩
  · show (W3.veh v).state = .ended ∨ (W3.veh v).state = .abort
    rw [e3]; exact e5
  · show (W3.veh v).log ++ [e] = _
    rw [e3]
    show (W2.veh v).log ++ [e] = _
    rw [f7]
  · show (W3.veh v).count = _
    rw [e3]; exact f9
  · show (W3.veh v).eager ++ [(W.g.timestep, (W3.veh v).state)] = _
    rw [show (W3.veh v).eager = (W.veh v).eager by rw [e3]; exact f11]

theorem endTripOn_mkey_ne (W : CWorld) {v l w : ℕ} (h : w ≠ v) :
    ((W.endTripOn v l).veh w).mkey = (W.veh w).mkey := by
  rw [endTripOn_veh_ne W v l w h]; rfl

theorem Trk.endTripOn {b b' : Bool} {W X : CWorld} {r r' : Prop} {o v l : ℕ} (hm : X.g.logMode = true)
    (hs : (W.veh v).state = .run) (hf : b = false → (W.veh v).flagWait = true)
    (hk : (X.veh v).mkey = (W.veh v).mkey) (h : Trk b W r o (W.veh v)) :
    Trk b' W r' o ((X.endTripOn v l).veh v) := by
  obtain ⟨e, s, a1, a2, a3, a4, a5⟩ := endTripOn_row hm v l
  have f7 : (X.veh v).log = (W.veh v).log := congrArg (fun p => p.2.1) hk
  have f9 : (X.veh v).count = (W.veh v).count := congrArg (fun p => p.2.2.2.1) hk
  have f11 : (X.veh v).eager = (W.veh v).eager := congrArg (fun p => p.2.2.2.2.2.1) hk
  exact h.ends hs hf a1 X.g.timestep a2 (by rw [a3, f7]) (by rw [a4, f9]) (by rw [a5, f11])

/-- The transfer buffers after an action before the update of the vehicles. -/
theorem Req.of_eq {W W' : CWorld} {w : ℕ} (h1 : ∀ m, (W'.link m).arrived = (W.link m).arrived)
    (h2 : ∀ n, w ∈ (W'.node n).incoming → w ∈ (W.node n).incoming) (h : Req W' w) : Req W w := by
  rcases h with ⟨m, h⟩ | ⟨n, h⟩
  · exact Or.inl ⟨m, by rw [← h1]; exact h⟩
  · exact Or.inr ⟨n, h2 n h⟩

theorem req_setN {W : CWorld} {n w : ℕ} {f : CNode → CNode}
    (hf : ∀ N, w ∈ (f N).incoming → w ∈ N.incoming) (h : Req (W.setN n f) w) : Req W w :=
  Req.of_eq (W' := W.setN n f) (fun _ => rfl) (fun m hm => by
    rw [setN_node] at hm
    split at hm
    · rename_i e; subst e; exact hf _ hm
    · exact hm) h

theorem req_endTripOn {W : CWorld} {v l w : ℕ} (h : Req (W.endTripOn v l) w) : Req W w :=
  h.of_eq (fun m => endTripOn_arrived W v l m) (fun n hm => by rw [endTripOn_incoming] at hm; exact hm)

theorem moved_arrived (W : CWorld) (n v a b m : ℕ) :
    ((W.moved n v a b).link m).arrived = (W.link m).arrived := by
  rw [moved_link, leave_link, setL_link]
  split
  · rename_i e; subst e
    rw [setL_link]; split
    · rename_i e; subst e; rfl
    · rfl
  · rw [setL_link]; split
    · rename_i e; subst e; rfl
    · rfl

theorem moved_incoming (W : CWorld) (n v a b m : ℕ) :
    ((W.moved n v a b).node m).incoming = (W.node m).incoming := by
  have h1 : ∀ (X : CWorld) u, (X.detach u).node = X.node := fun X u => by
    unfold CWorld.detach; split <;> rfl
  simp only [CWorld.moved, place, setV_node, attach_node, CWorld.leave, h1]
  split
  · rw [setN_node]; split
    · rename_i e; subst e; rfl
    · rfl
  · rfl

theorem RowP.endTrip {W : CWorld} {v l w : ℕ} (hs : (W.veh v).state = .run) (hf : (W.veh v).flagWait = true)
    (k : Keep W (W.endTripOn v l)) (h : RowP false W w) : RowP false (W.endTripOn v l) w := by
  by_cases e : w = v
  · subst e
    exact h.upd k (fun _ t => Trk.endTripOn h.2.2.1 hs (fun _ => hf) rfl t)
  · exact h.key k req_endTripOn (endTripOn_mkey_ne W e)

theorem collect_req {W : CWorld} {n w : ℕ} (h : Req (W.collect n) w) : Req W w := by
  rcases h with ⟨m, h⟩ | ⟨m, h⟩
  · rw [collect_link] at h
    split at h
    · simp at h
    · exact Or.inl ⟨m, h⟩
  · rw [collect_node] at h
    simp only at h
    split at h
    · rename_i e; subst e
      rw [sortIds, List.mem_insertionSort] at h
      rcases List.mem_append.1 h with h | h
      · exact Or.inr ⟨m, h⟩
      · obtain ⟨a, _, ha⟩ := List.mem_flatMap.1 h
        exact Or.inl ⟨a, ha⟩
    · exact Or.inr ⟨m, h⟩

theorem RowP.act {s : Stage} {W W' : CWorld} (hs : s = .gen ∨ s = .trans ∨ s = .follow) (a : Act s W W')
    (w : ℕ) (h : RowP false W w) : RowP false W' w := by
  have hk := a.keep
  cases a with
  | genErr _ n e => exact h.key hk (req_setN (by intro N hN; exact hN)) rfl
  | choose _ n v t o rng i hi hq hc =>
    refine h.key hk (fun hr => req_setN (n := n) (f := fun N => { N with rng := rng }) (by intro N hN; exact hN) hr)
      (setV_mkey _ _ _ (by intro V; rfl) _)
  | depart _ n v l t i hi hq hl hn hc =>
    obtain ⟨hvn, hst, hor⟩ := (i.gen n v).1 (by rw [hq]; simp)
    have hnot : ∀ m, v ∉ (W.link m).vehs := fun m hm => by
      have := (i.mem m v hm).2.1; rw [hst] at this; simp at this
    have harr : ∀ m, ((W.depart n v l).link m).arrived = (W.link m).arrived := fun m => by
      simp only [CWorld.depart, setL_link, attach_link, setV_link, setN_link]
      split
      · rename_i e; subst e; rfl
      · rfl
    have hinc : ∀ m, ((W.depart n v l).node m).incoming = (W.node m).incoming := fun m => by
      simp only [CWorld.depart, setL_node, attach_node, setV_node, setN_node]
      split
      · rename_i e; subst e; rfl
      · rfl
    have hreq : Req (W.depart n v l) w → Req W w :=
      Req.of_eq harr (fun m hm => by rw [← hinc]; exact hm)
    by_cases e : w = v
    · subst e
      have ev : ∃ ln, ((W.depart n w l).veh w).mkey = CVeh.mkey { W.veh w with
          state := .run, link := some l, x := 0, v := (W.link l).vmax, lane := ln
          arrTimeLink := W.now, count := (W.veh w).count + 1 } := by
        simp only [CWorld.depart, setL_veh]
        rw [attach_veh _ _ _ _ (by simpa using hnot l)]
        simp only [setV_veh, setN_veh, if_true]
        exact ⟨_, rfl⟩
      obtain ⟨ln, ev⟩ := ev
      refine h.upd hk (fun _ t => ?_)
      have hl' := (i.outL n l).1 hl
      refine t.depart hst hl'.1 (hl'.2.trans hor.symm) (fun hr => ?_) (i.fresh w hvn (Or.inr hst)).2 ev
      rcases hreq hr with ⟨m, hm⟩ | ⟨m, hm⟩
      · exact hnot m (i.arr m w hm).1
      · rw [hi] at hm; simp at hm
    · refine h.key hk hreq ?_
      simp only [CWorld.depart, setL_veh]
      rw [attach_veh _ _ _ _ (by simpa using hnot l)]
      simp only [setV_veh, setN_veh, if_neg e]
      rfl
  | signal _ n => exact h.key hk (Req.of_eq (fun _ => rfl) (fun m hm => by
      have := (Keep.node hk m)
      unfold CWorld.signalUpdate at hm
      revert hm
      simp only [setN_node]
      split
      · rename_i e; subst e; exact fun hm => hm
      · exact fun hm => hm)) rfl
  | flow _ n => exact h.key hk (Req.of_eq (fun _ => rfl) (fun m hm => by
      unfold CWorld.flowUpdate at hm
      revert hm
      simp only [setN_node]
      split
      · rename_i e; subst e; exact fun hm => hm
      · exact fun hm => hm)) rfl
  | collect _ n i hi => exact h.key hk collect_req (by rw [collect_veh])
  | draw _ n rng => exact h.key hk (req_setN (by intro N hN; exact hN)) rfl
  | move _ n v a b t k ha hq hb hn hf hc hr ho hs hm =>
    have i := k.inv
    have hva : v ∈ (W.link a).vehs := by rw [hq]; simp
    have hm' : ∀ w, w ≠ v → ((W.moved n v a b).veh w).mkey = (W.veh w).mkey := fun w e => by
      rw [moved_veh_other (n := n) (b := b) i hq w e]; rfl
    have hv0 : (W.moveVeh n v a b).veh = ((W.moved n v a b).endFront a).1.veh := rfl
    have ha0 : ∀ m, ((W.moveVeh n v a b).link m).arrived = (((W.moved n v a b).endFront a).1.link m).arrived := by
      intro m
      show ((((W.moved n v a b).endFront a).1.setL b (fun L => { L with vehs := L.vehs ++ [v] })).link m).arrived = _
      rw [setL_link]; split
      · rename_i e; subst e; rfl
      · rfl
    have hi0 : ∀ m, w ∈ ((W.moveVeh n v a b).node m).incoming →
        w ∈ (((W.moved n v a b).endFront a).1.node m).incoming ∧ (m = n → w ≠ v) := by
      intro m hm
      have hm2 : w ∈ (((((W.moved n v a b).endFront a).1.setL b
        (fun L => { L with vehs := L.vehs ++ [v] })).setN n
          (fun N => { N with incoming := N.incoming.filter (· ≠ v) })).node m).incoming := hm
      rw [setN_node] at hm2
      split at hm2
      · rename_i e; subst e
        have := List.mem_filter.1 hm2
        exact ⟨this.1, fun _ => by simpa using this.2⟩
      · rename_i e
        exact ⟨hm2, fun h => absurd h e⟩
    have hE : (∀ m, (((W.moved n v a b).endFront a).1.link m).arrived = (W.link m).arrived) ∧
        ∀ m, (((W.moved n v a b).endFront a).1.node m).incoming = (W.node m).incoming := by
      rcases moved_endFront (n := n) (b := b) i hq with e | ⟨h', t', e1, hne, hfh, e⟩
      · rw [e]; exact ⟨moved_arrived W n v a b, moved_incoming W n v a b⟩
      · rw [e]
        exact ⟨fun m => by rw [endTripOn_arrived, moved_arrived],
          fun m => by rw [endTripOn_incoming, moved_incoming]⟩
    have hreq : Req (W.moveVeh n v a b) w → Req W w :=
      Req.of_eq (fun m => (ha0 m).trans (hE.1 m)) (fun m hm => by rw [← hE.2]; exact (hi0 m hm).1)
    by_cases e : w = v
    · subst e
      obtain ⟨ln, ld, q, eq⟩ := moved_veh_self (n := n) (b := b) i hq
      have ev : ((W.moveVeh n w a b).veh w).mkey = CVeh.mkey { W.veh w with
          link := some b, x := q, v := (W.veh w).v + q / W.g.deltaT, lane := ln
          arrTimeLink := W.now, count := (W.veh w).count + 1 } := by
        rw [hv0]
        have e2 : (((W.moved n w a b).endFront a).1.veh w).mkey = ((W.moved n w a b).veh w).mkey := by
          rcases moved_endFront (n := n) (b := b) i hq with e | ⟨h', t', e1, hne, hfh, e⟩
          · rw [e]
          · rw [e, endTripOn_mkey_ne _ (Ne.symm hne)]
        rw [e2, eq, h.1]
        rfl
      refine h.upd hk (fun _ t => ?_)
      have hb' := (i.outL n b).1 hb
      have ha' := (i.inL n a).1 ha
      refine t.move h.2.1 (i.mem a w hva).2.1 (i.mem a w hva).1 (Or.inr ⟨n, hm⟩) hb'.1
        (ha'.2.trans hb'.2.symm) (fun hr => ?_) hf ev
      rcases hr with ⟨m, hr⟩ | ⟨m, hr⟩
      · rw [ha0, hE.1] at hr
        obtain rfl := i.uniq (i.arr m w hr).1 hva
        rw [k.arr m ha] at hr; simp at hr
      · obtain ⟨p, q⟩ := hi0 m hr
        by_cases e : m = n
        · exact q e rfl
        · rw [hE.2, k.inc m e] at p; simp at p
    · rcases moved_endFront (n := n) (b := b) i hq with e' | ⟨h', t', e1, hne, hfh, e'⟩
      · exact h.key hk hreq (by rw [hv0, e']; exact hm' w e)
      · by_cases e2 : w = h'
        · subst e2
          refine h.upd hk (fun _ t => ?_)
          rw [hv0, e']
          exact Trk.endTripOn (by rw [moved_g]; exact h.2.2.1) (i.mem a w (by rw [hq, e1]; simp)).2.1
            (fun _ => hfh) (hm' w e) t
        · exact h.key hk hreq (by rw [hv0, e', endTripOn_mkey_ne _ e2]; exact hm' w e)
  | endFront _ v l t i hq hna hni hf => exact h.endTrip (i.mem l v (by rw [hq]; simp)).2.1 hf hk
  | finish _ n => exact h.key hk (req_setN (by intro N hN; simp at hN)) rfl
  | follow _ v l i hv =>
    have hc : (W.carFollow v).link = W.link ∧ (W.carFollow v).node = W.node := by
      unfold carFollow
      split
      · exact ⟨rfl, rfl⟩
      · split <;> exact ⟨rfl, rfl⟩
    refine h.key hk (Req.of_eq (by rw [hc.1]; simp) (by rw [hc.2]; simp)) ?_
    unfold carFollow
    split
    · rfl
    · split <;> exact setV_mkey _ _ _ (by intro V; rfl) _
  | log _ v l s i hv => simp at hs
  | advance _ v l i hv => simp at hs
  | abort _ v l i hv hd ho ha => simp at hs
  | flag _ v l i hv hc => simp at hs
  | endRun _ v l t i hq hna hi hf => simp at hs
  | reqErr _ l e => simp at hs
  | req _ v l o rng i hv hd hc => simp at hs
  | waitLog _ n v i hv => simp at hs

end UX.Cpp
