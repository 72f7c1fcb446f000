import Verif.Proofs.CppRowsReach
import Verif.Spec.CppPlan

/-!
# Vehicles of the C++ engine with a specified route follow it
-/

namespace UX.Cpp
open CWorld Relation Spec

/-- The links of an enter log, without the times. -/
def names : Option ℕ → List (Option ℕ) → List ℕ
  | _, [] => []
  | p, none :: r => names p r
  | p, some l :: r => if p = some l then names (some l) r else l :: names (some l) r

theorem enterScan_names (t : ℕ → ℚ) (p : Option ℕ) (i : ℕ) (xs : List (Option ℕ)) :
    (enterScan t p i xs).map Prod.fst = names p xs := by
  induction xs generalizing p i with
  | nil => rfl
  | cons o r ih =>
    cases o with
    | none => exact ih p (i + 1)
    | some l =>
      simp only [enterScan, names]
      split
      · rename_i h; subst h; exact ih _ _
      · rw [List.map_cons, ih]

theorem names_none (p : Option ℕ) (xs : List (Option ℕ)) : names p (xs ++ [none]) = names p xs := by
  rw [← enterScan_names (fun _ => 0) p 0, enterScan_snoc, List.append_nil, enterScan_names]

theorem names_some (p : Option ℕ) (xs : List (Option ℕ)) (l : ℕ) :
    names p (xs ++ [some l]) = names p xs ++ if lastLink p xs = some l then [] else [l] := by
  rw [← enterScan_names (fun _ => 0) p 0, enterScan_snoc, List.map_append, enterScan_names]
  simp only
  split <;> rfl

theorem names_nil {xs : List (Option ℕ)} (h : ∀ o ∈ xs, o = none) (p : Option ℕ) : names p xs = [] := by
  rw [← enterScan_names (fun _ => 0) p 0, enterScan_none h]; rfl

/-- The links in the log of a vehicle. -/
def CVeh.trace (V : CVeh) : List ℕ := names none (V.log.map CLog.link)

/-- The fields of a vehicle that matter. -/
def CVeh.pkey (V : CVeh) := (V.state, V.link, V.next, V.count, V.route, V.log)

/-- `V` is on its route; `r` says that it waits in a transfer buffer. -/
structure Fol (r : Prop) (V : CVeh) : Prop where
  fresh : V.state = .home ∨ V.state = .wait → V.count = 0 ∧ ∀ e ∈ V.log, e.link = none
  on : V.route ≠ [] → V.state = .run → ∃ l k, V.link = some l ∧ V.count = k + 1 ∧ V.route[k]? = some l
  asks : V.route ≠ [] → r → V.next = none ∨ V.next = V.route[V.count]?
  len : V.route ≠ [] → V.count ≤ V.route.length
  sub : V.route ≠ [] → V.trace.Sublist (V.route.take V.count)
  last : V.route ≠ [] → V.state = .run → V.trace.Sublist (V.route.take (V.count - 1)) ∨
    lastLink none (V.log.map CLog.link) = V.link

theorem Fol.mono {r r' : Prop} {V V' : CVeh} (h : Fol r V) (hr : r' → r) (hk : V'.pkey = V.pkey) : Fol r' V' := by
  have e1 : V'.state = V.state := congrArg (fun p => p.1) hk
  have e2 : V'.link = V.link := congrArg (fun p => p.2.1) hk
  have e3 : V'.next = V.next := congrArg (fun p => p.2.2.1) hk
  have e4 : V'.count = V.count := congrArg (fun p => p.2.2.2.1) hk
  have e5 : V'.route = V.route := congrArg (fun p => p.2.2.2.2.1) hk
  have e6 : V'.log = V.log := congrArg (fun p => p.2.2.2.2.2) hk
  have e7 : V'.trace = V.trace := by unfold CVeh.trace; rw [e6]
  refine ⟨?_, ?_, ?_, ?_, ?_, ?_⟩
  · rw [e1, e4, e6]; exact h.fresh
  · rw [e1, e2, e4, e5]; exact h.on
  · rw [e3, e4, e5]; exact fun a b => h.asks a (hr b)
  · rw [e4, e5]; exact h.len
  · rw [e4, e5, e7]; exact h.sub
  · rw [e1, e2, e4, e5, e6, e7]; exact h.last

/-- The log grows by at most an entry without a link. -/
def Mute (xs ys : List CLog) : Prop := ys = xs ∨ ∃ e : CLog, e.link = none ∧ ys = xs ++ [e]

theorem Mute.trace {V V' : CVeh} (h : Mute V.log V'.log) : V'.trace = V.trace := by
  unfold CVeh.trace
  rcases h with h | ⟨e, he, h⟩
  · rw [h]
  · rw [h, List.map_append, List.map_cons, he]; exact names_none _ _

/-- The end of a trip. -/
theorem Fol.over {r r' : Prop} {V V' : CVeh} (h : Fol r V) (hr : r' → r)
    (hs : V'.state = .ended ∨ V'.state = .abort) (h3 : V'.next = V.next) (h4 : V'.count = V.count)
    (h5 : V'.route = V.route) (h6 : Mute V.log V'.log) : Fol r' V' := by
  have h7 := h6.trace
  refine ⟨fun hh => ?_, fun _ hh => ?_, ?_, ?_, ?_, fun _ hh => ?_⟩
  · rcases hs with hs | hs <;> rw [hs] at hh <;> simp at hh
  · rcases hs with hs | hs <;> rw [hs] at hh <;> simp at hh
  · rw [h3, h4, h5]; exact fun a b => h.asks a (hr b)
  · rw [h4, h5]; exact h.len
  · rw [h4, h5, h7]; exact h.sub
  · rcases hs with hs | hs <;> rw [hs] at hh <;> simp at hh

/-- A log entry of a waiting vehicle. -/
theorem Fol.logIdle {r r' : Prop} {V : CVeh} (h : Fol r V) (hr : r' → r) (hs : V.state ≠ .run) {e : CLog}
    (he : e.link = none) : Fol r' { V with log := V.log ++ [e] } := by
  have h7 : CVeh.trace { V with log := V.log ++ [e] } = V.trace := Mute.trace (Or.inr ⟨e, he, rfl⟩)
  refine ⟨fun hh => ⟨(h.fresh hh).1, fun a ha => ?_⟩, h.on, fun a b => h.asks a (hr b), h.len, ?_,
    fun _ hh => absurd hh hs⟩
  · rcases List.mem_append.1 ha with ha | ha
    · exact (h.fresh hh).2 a ha
    · rw [List.mem_singleton.1 ha]; exact he
  · rw [h7]; exact h.sub

/-- A log entry of a vehicle on the road. -/
theorem Fol.logRun {r r' : Prop} {V : CVeh} (h : Fol r V) (hr : r' → r) (hs : V.state = .run) {e : CLog}
    (he : e.link = V.link) : Fol r' { V with log := V.log ++ [e] } := by
  have hh : ∀ {P : Prop}, (V.state = .home ∨ V.state = .wait) → P := fun hc => by
    rw [hs] at hc; simp at hc
  by_cases hn : V.route = []
  · exact ⟨fun hc => hh hc, fun a => absurd hn a, fun a => absurd hn a, fun a => absurd hn a,
      fun a => absurd hn a, fun a => absurd hn a⟩
  obtain ⟨l, k, h1, h2, h3⟩ := h.on hn hs
  have hlast : lastLink none ((V.log ++ [e]).map CLog.link) = V.link := by
    rw [List.map_append, List.map_cons, he, h1]; exact lastLink_snoc _ _ _
  refine ⟨fun hc => hh hc, h.on, fun a b => h.asks a (hr b), h.len, fun _ => ?_, fun _ _ => Or.inr hlast⟩
  show (names none ((V.log ++ [e]).map CLog.link)).Sublist _
  rw [List.map_append, List.map_cons, he, h1, List.map_nil, names_some]
  split
  · rw [List.append_nil]; exact h.sub hn
  · rename_i hc
    rcases h.last hn hs with hl | hl
    · show (V.trace ++ [l]).Sublist (V.route.take V.count)
      rw [h2] at hl ⊢
      have hk : k < V.route.length := by
        by_contra hc
        rw [List.getElem?_eq_none (by omega)] at h3; simp at h3
      rw [List.take_succ, h3]
      exact List.Sublist.append hl (List.Sublist.refl _)
    · exact absurd (hl.trans h1) hc

theorem setV_pkey (W : CWorld) (v : ℕ) (f : CVeh → CVeh) (h : ∀ V, (f V).pkey = V.pkey) (w : ℕ) :
    ((W.setV v f).veh w).pkey = (W.veh w).pkey := by
  rw [setV_veh]; split
  · rename_i e; subst e; exact h _
  · rfl

/-- What `log_data` does to a vehicle. -/
theorem logData_cases (W : CWorld) (v : ℕ) (s : Option ℕ) :
    (∀ w, (W.logData v s).veh w = W.veh w) ∨
    ∃ e : CLog, (e.link = if (W.veh v).state = .run then (W.veh v).link else none) ∧
      ∀ w, (W.logData v s).veh w = if w = v then pushed W.g.timestep e (W.veh w) else W.veh w := by
  by_cases hm : W.g.logMode = true
  · exact Or.inr (logData_pushed hm v s)
  · left
    intro w
    unfold logData logPush
    rw [logStats_g, if_neg hm, logStats_veh]

theorem Fol.logData {W : CWorld} {v : ℕ} (s : Option ℕ) {w : ℕ} {r r' : Prop} (hr : r' → r) (h : Fol r (W.veh w)) :
    Fol r' ((W.logData v s).veh w) := by
  rcases logData_cases W v s with e | ⟨e, he, e2⟩
  · rw [e]; exact h.mono hr rfl
  · rw [e2]
    split
    · rename_i hw; subst hw
      by_cases hs : (W.veh w).state = .run
      · rw [if_pos hs] at he
        exact (h.logRun hr hs he).mono (fun h => h) rfl
      · rw [if_neg hs] at he
        exact (h.logIdle hr hs he).mono (fun h => h) rfl
    · exact h.mono hr rfl

theorem endTripOn_quiet (W : CWorld) (v l : ℕ) : Mute (W.veh v).log ((W.endTripOn v l).veh v).log := by
  by_cases hm : W.g.logMode = true
  · obtain ⟨e, s, a1, a2, a3, a4, a5⟩ := endTripOn_row hm v l
    exact Or.inr ⟨e, a1, a3⟩
  · left
    unfold CWorld.endTripOn
    extract_lets W1 W2 W3
    have hg : W3.g = W.g := by
      show W2.g = W.g
      exact detach_g _ _
    have e0 : (W3.logData v none).veh v = W3.veh v := by
      unfold logData logPush
      rw [logStats_g, hg, if_neg hm, logStats_veh]
    have e3 : (W3.veh v).log = (W2.veh v).log := by
      show ((W2.setV v _).veh v).log = _
      rw [setV_veh, if_pos rfl]
    have e4 : (W2.veh v).log = (W.veh v).log := by
      show ((W1.detach v).veh v).log = _
      rw [detach_veh]; rfl
    rw [e0, e3, e4]

theorem endTripOn_pkey_ne (W : CWorld) {v l w : ℕ} (h : w ≠ v) :
    ((W.endTripOn v l).veh w).pkey = (W.veh w).pkey := by
  rw [endTripOn_veh_ne W v l w h]; rfl

theorem Fol.endTripOn {W : CWorld} {v l : ℕ} {r r' : Prop} (hr : r' → r) (h : Fol r (W.veh v)) :
    Fol r' ((W.endTripOn v l).veh v) := by
  have e := endTripOn_veh_self W v l
  have a1 := congrArg CVeh.state e
  have a3 := congrArg CVeh.next e
  have a4 := congrArg CVeh.count e
  have a5 := congrArg CVeh.route e
  refine h.over hr ?_ a3 a4 a5 (endTripOn_quiet W v l)
  have a1' : ((W.endTripOn v l).veh v).state = if (W.veh v).flagAbort then .abort else .ended := a1
  rw [a1']
  split
  · exact Or.inr rfl
  · exact Or.inl rfl

theorem lt_of_getElem? {xs : List ℕ} {i a : ℕ} (h : xs[i]? = some a) : i < xs.length := by
  by_contra hc
  rw [List.getElem?_eq_none (by omega)] at h; simp at h

/-! ## Transfer buffers -/

theorem req_depart {W : CWorld} {n v l w : ℕ} : Req (W.depart n v l) w → Req W w := by
  refine Req.of_eq (fun m => ?_) (fun m hm => ?_)
  · simp only [CWorld.depart, setL_link, attach_link, setV_link, setN_link]
    split
    · rename_i e; subst e; rfl
    · rfl
  · revert hm
    simp only [CWorld.depart, setL_node, attach_node, setV_node, setN_node]
    split
    · rename_i e; subst e; exact fun h => h
    · exact fun h => h

theorem wait_not_req {W : CWorld} (i : Inv W none none) (hi : ∀ m, (W.node m).incoming = []) {v : ℕ}
    (hs : (W.veh v).state = .wait) : ¬ Req W v := by
  rintro (⟨m, hm⟩ | ⟨m, hm⟩)
  · have := (i.mem m v (i.arr m v hm).1).2.1
    rw [hs] at this; simp at this
  · rw [hi] at hm; simp at hm

/-- The transfer buffers after a vehicle has moved. -/
theorem req_move {W : CWorld} {n v a b : ℕ} {t : List ℕ} (k : AtNode n W) (ha : a ∈ (W.node n).inLinks)
    (hq : (W.link a).vehs = v :: t) {w : ℕ} (h : Req (W.moveVeh n v a b) w) : Req W w ∧ w ≠ v := by
  have i := k.inv
  have hva : v ∈ (W.link a).vehs := by rw [hq]; simp
  have ha0 : ∀ m, ((W.moveVeh n v a b).link m).arrived = (((W.moved n v a b).endFront a).1.link m).arrived := by
    intro m
    show ((((W.moved n v a b).endFront a).1.setL b (fun L => { L with vehs := L.vehs ++ [v] })).link m).arrived = _
    rw [setL_link]; split
    · rename_i e; subst e; rfl
    · rfl
  have hi0 : ∀ m, w ∈ ((W.moveVeh n v a b).node m).incoming →
      w ∈ (((W.moved n v a b).endFront a).1.node m).incoming ∧ (m = n → w ≠ v) := by
    intro m hm
    have hm2 : w ∈ (((((W.moved n v a b).endFront a).1.setL b
      (fun L => { L with vehs := L.vehs ++ [v] })).setN n
        (fun N => { N with incoming := N.incoming.filter (· ≠ v) })).node m).incoming := hm
    rw [setN_node] at hm2
    split at hm2
    · rename_i e; subst e
      have := List.mem_filter.1 hm2
      exact ⟨this.1, fun _ => by simpa using this.2⟩
    · rename_i e
      exact ⟨hm2, fun h => absurd h e⟩
  have hE : (∀ m, (((W.moved n v a b).endFront a).1.link m).arrived = (W.link m).arrived) ∧
      ∀ m, (((W.moved n v a b).endFront a).1.node m).incoming = (W.node m).incoming := by
    rcases moved_endFront (n := n) (b := b) i hq with e | ⟨h', t', e1, hne, hfh, e⟩
    · rw [e]; exact ⟨moved_arrived W n v a b, moved_incoming W n v a b⟩
    · rw [e]
      exact ⟨fun m => by rw [endTripOn_arrived, moved_arrived],
        fun m => by rw [endTripOn_incoming, moved_incoming]⟩
  refine ⟨Req.of_eq (fun m => (ha0 m).trans (hE.1 m)) (fun m hm => by rw [← hE.2]; exact (hi0 m hm).1) h, ?_⟩
  rintro rfl
  rcases h with ⟨m, hr⟩ | ⟨m, hr⟩
  · rw [ha0, hE.1] at hr
    obtain rfl := i.uniq (i.arr m w hr).1 hva
    rw [k.arr m ha] at hr; simp at hr
  · obtain ⟨p, q⟩ := hi0 m hr
    by_cases e : m = n
    · exact q e rfl
    · rw [hE.2, k.inc m e] at p; simp at p

theorem chooseNext_plan {W : CWorld} {v : ℕ} {ls : List ℕ} {rng rng' : ℕ → ℕ} {o : Option ℕ}
    (h : W.chooseNext v ls rng = .ok (o, rng')) (hr : (W.veh v).route ≠ []) :
    o = none ∨ o = (W.veh v).route[(W.veh v).count]? := by
  cases o with
  | none => exact Or.inl rfl
  | some a => exact Or.inr (chooseNext_route h hr).symm

theorem Act.fol {s : Stage} {W W' : CWorld} (a : Act s W W') (w : ℕ) (h : Fol (Req W w) (W.veh w)) :
    Fol (Req W' w) (W'.veh w) := by
  cases a with
  | genErr _ n e => exact h.mono (req_setN (by intro N hN; exact hN)) rfl
  | choose _ n v t o rng i hi hq hc =>
    obtain ⟨hvn, hst, hor⟩ := (i.gen n v).1 (by rw [hq]; simp)
    have hr : Req ((W.setN n (fun N => { N with rng := rng })).setV v (fun V => { V with next := o })) w →
        Req W w := fun hr => req_setN (n := n) (f := fun N => { N with rng := rng }) (by intro N hN; exact hN) hr
    by_cases e : w = v
    · subst e
      have hno := wait_not_req i hi hst
      rw [setV_veh, if_pos rfl]
      exact ⟨h.fresh, h.on, fun _ r => absurd (hr r) hno, h.len, h.sub, h.last⟩
    · refine h.mono hr ?_
      rw [setV_veh, if_neg e]; rfl
  | depart _ n v l t i hi hq hl hn hc hch =>
    obtain ⟨hvn, hst, hor⟩ := (i.gen n v).1 (by rw [hq]; simp)
    have hnot : ∀ m, v ∉ (W.link m).vehs := fun m hm => by
      have := (i.mem m v hm).2.1; rw [hst] at this; simp at this
    by_cases e : w = v
    · subst e
      have ev : ((W.depart n w l).veh w).pkey = CVeh.pkey { W.veh w with
          state := .run, link := some l, count := (W.veh w).count + 1 } := by
        simp only [CWorld.depart, setL_veh]
        rw [attach_veh _ _ _ _ (by simpa using hnot l)]
        simp only [setV_veh, setN_veh, if_true]
        rfl
      have hno : ¬ Req (W.depart n w l) w := fun hr => wait_not_req i hi hst (req_depart hr)
      have : Fol False { W.veh w with state := .run, link := some l, count := (W.veh w).count + 1 } :=
        ⟨fun h => by simp at h, fun hr _ => ⟨l, _, rfl, rfl, hch hr⟩, fun _ h => h.elim,
          fun hr => lt_of_getElem? (hch hr), fun hr => (h.sub hr).trans (List.take_sublist_take_left (Nat.le_succ _)),
          fun hr _ => Or.inl (h.sub hr)⟩
      exact this.mono hno ev
    · refine h.mono req_depart ?_
      simp only [CWorld.depart, setL_veh]
      rw [attach_veh _ _ _ _ (by simpa using hnot l)]
      simp only [setV_veh, setN_veh, if_neg e]
      rfl
  | signal _ n => exact h.mono (Req.of_eq (fun _ => rfl) (fun m hm => by
      unfold CWorld.signalUpdate at hm
      revert hm
      simp only [setN_node]
      split
      · rename_i e; subst e; exact fun hm => hm
      · exact fun hm => hm)) rfl
  | flow _ n => exact h.mono (Req.of_eq (fun _ => rfl) (fun m hm => by
      unfold CWorld.flowUpdate at hm
      revert hm
      simp only [setN_node]
      split
      · rename_i e; subst e; exact fun hm => hm
      · exact fun hm => hm)) rfl
  | collect _ n i hi => exact h.mono collect_req (by rw [collect_veh])
  | draw _ n rng => exact h.mono (req_setN (by intro N hN; exact hN)) rfl
  | move _ n v a b t k ha hq hb hn hf hc hr ho hs hm =>
    have i := k.inv
    have hva : v ∈ (W.link a).vehs := by rw [hq]; simp
    have hv0 : (W.moveVeh n v a b).veh = ((W.moved n v a b).endFront a).1.veh := rfl
    have hm' : ∀ w, w ≠ v → ((W.moved n v a b).veh w).pkey = (W.veh w).pkey := fun w e => by
      rw [moved_veh_other (n := n) (b := b) i hq w e]; rfl
    by_cases e : w = v
    · subst e
      obtain ⟨ln, ld, q, eq⟩ := moved_veh_self (n := n) (b := b) i hq
      have ev : ((W.moveVeh n w a b).veh w).pkey = CVeh.pkey { W.veh w with
          link := some b, count := (W.veh w).count + 1 } := by
        rw [hv0]
        have e2 : (((W.moved n w a b).endFront a).1.veh w).pkey = ((W.moved n w a b).veh w).pkey := by
          rcases moved_endFront (n := n) (b := b) i hq with e | ⟨h', t', e1, hne, hfh, e⟩
          · rw [e]
          · rw [e, endTripOn_pkey_ne _ (Ne.symm hne)]
        rw [e2, eq]
        rfl
      have hno : ¬ Req (W.moveVeh n w a b) w := fun hr => (req_move k ha hq hr).2 rfl
      have hs := (i.mem a w hva).2.1
      have : Fol False { W.veh w with link := some b, count := (W.veh w).count + 1 } := by
        have hch : (W.veh w).route ≠ [] → (W.veh w).route[(W.veh w).count]? = some b := fun hr => by
          rcases h.asks hr (Or.inr ⟨n, hm⟩) with h | h
          · rw [hn] at h; simp at h
          · rw [hn] at h; exact h.symm
        refine ⟨fun h => ?_, fun hr _ => ⟨b, _, rfl, rfl, hch hr⟩, fun _ h => h.elim,
          fun hr => lt_of_getElem? (hch hr), fun hr => (h.sub hr).trans (List.take_sublist_take_left (Nat.le_succ _)),
          fun hr _ => Or.inl (h.sub hr)⟩
        simp only [hs] at h; simp at h
      exact this.mono hno ev
    · have hreq : Req (W.moveVeh n v a b) w → Req W w := fun hr => (req_move k ha hq hr).1
      rcases moved_endFront (n := n) (b := b) i hq with e' | ⟨h', t', e1, hne, hfh, e'⟩
      · exact h.mono hreq (by rw [hv0, e']; exact hm' w e)
      · by_cases e2 : w = h'
        · subst e2
          rw [hv0, e']
          exact Fol.endTripOn hreq (h.mono (fun h => h) (hm' w e))
        · exact h.mono hreq (by rw [hv0, e', endTripOn_pkey_ne _ e2]; exact hm' w e)
  | endFront _ v l t i hq hna hni hf =>
    by_cases e : w = v
    · subst e; exact Fol.endTripOn req_endTripOn h
    · exact h.mono req_endTripOn (endTripOn_pkey_ne W e)
  | finish _ n => exact h.mono (req_setN (by intro N hN; simp at hN)) rfl
  | follow _ v l i hv =>
    have hc : (W.carFollow v).link = W.link ∧ (W.carFollow v).node = W.node := by
      unfold carFollow
      split
      · exact ⟨rfl, rfl⟩
      · split <;> exact ⟨rfl, rfl⟩
    refine h.mono (Req.of_eq (by rw [hc.1]; simp) (by rw [hc.2]; simp)) ?_
    unfold carFollow
    split
    · rfl
    · split <;> exact setV_pkey _ _ _ (by intro V; rfl) _
  | log _ v l s i hv =>
    have hc := core_logData W v s
    exact h.logData s (Req.of_eq (fun m => core_arrived hc m) (fun n hn => by rw [core_incoming hc] at hn; exact hn))
  | advance _ v l i hv => exact h.mono (Req.of_eq (fun _ => rfl) (fun _ h => h)) (setV_pkey _ _ _ (by intro V; rfl) _)
  | abort _ v l i hv hd ho ha =>
    by_cases e : w = v
    · subst e
      rw [setV_veh, if_pos rfl]
      exact ⟨h.fresh, h.on, fun _ _ => Or.inl rfl, h.len, h.sub, h.last⟩
    · refine h.mono (Req.of_eq (fun _ => rfl) (fun _ h => h)) ?_
      rw [setV_veh, if_neg e]
  | flag _ v l i hv hc => exact h.mono (Req.of_eq (fun _ => rfl) (fun _ h => h)) (setV_pkey _ _ _ (by intro V; rfl) _)
  | endRun _ v l t i hq hna hi hf =>
    by_cases e : w = v
    · subst e; exact Fol.endTripOn req_endTripOn h
    · exact h.mono req_endTripOn (endTripOn_pkey_ne W e)
  | reqErr _ l e =>
    refine h.mono (Req.of_eq (fun m => ?_) (fun _ h => h)) rfl
    rw [setL_link]; split
    · rename_i e; subst e; rfl
    · rfl
  | req _ v l o rng i hv hd hc =>
    by_cases e : w = v
    · subst e
      rw [setL_veh, setV_veh, if_pos rfl]
      exact ⟨h.fresh, h.on, fun hr _ => chooseNext_plan hc hr, h.len, h.sub, h.last⟩
    · refine h.mono ?_ (by rw [setL_veh, setV_veh, if_neg e])
      rintro (⟨m, hm⟩ | ⟨n, hn⟩)
      · rw [setL_link] at hm
        split at hm
        · rename_i e'; subst e'
          rcases List.mem_append.1 hm with hm | hm
          · exact Or.inl ⟨m, hm⟩
          · exact absurd (List.mem_singleton.1 hm) e
        · exact Or.inl ⟨m, hm⟩
      · exact Or.inr ⟨n, hn⟩
  | waitLog _ n v i hv =>
    have hc := core_logData W v none
    exact h.logData none (Req.of_eq (fun m => core_arrived hc m) (fun n hn => by rw [core_incoming hc] at hn; exact hn))

end UX.Cpp
