import Verif.Proofs.CppPass
import Verif.Proofs.CppKinStep
import Verif.Proofs.CppRuns
import Verif.Proofs.CppLifeInv
import Verif.Spec.CppLog

/-!
# Vehicle logs of the C++ engine
-/

namespace UX.Cpp
open CWorld Relation Spec

/-- The fields of a vehicle that matter for its log. -/
def CVeh.key (V : CVeh) : VState × ℚ × List CLog × ℤ × ℤ × ℕ × ℕ × List (ℕ × VState) :=
  (V.state, V.depTime, V.log, V.logFirst, V.logLast, V.logWait, V.logEnd, V.eager)

/-- The log of a vehicle is right and its next entry is due in time step `n`; `b`: the entry of this time
step has been made. `c` is the clock. -/
def LogAt (c : ℕ → ℚ) (b : Bool) (n : ℕ) (V : CVeh) : Prop :=
  match V.state with
  | .home => V.log = [] ∧ V.eager = [] ∧ V.logWait = 0 ∧ V.logEnd = 0
  | .wait => ∃ f, V.eager = life f V.logWait 0 ∧ f + 1 + V.logWait = n ∧ V.depTime ≤ c f ∧
      V.logFirst = f ∧ V.logEnd = 0 ∧ V.log.length = V.eager.length ∧
      ∀ e ∈ V.log, e.link = none
  | .run => ∃ f r, V.eager = life f V.logWait r ∧ f + 1 + V.logWait + r = n ∧ (b = true → 0 < r) ∧
      V.depTime ≤ c f ∧ V.logFirst = f ∧ V.logEnd = 0 ∧ V.log.length = V.eager.length ∧
      (∀ i e, V.log[i]? = some e → ((∃ l, e.link = some l) ↔ 1 + V.logWait ≤ i))
  | s => ∃ f r t, V.eager = life f V.logWait r ++ [(t, s)] ∧
      (t = f + V.logWait + r ∨ t = f + 1 + V.logWait + r) ∧ (t < if b then n else n + 1) ∧
      V.depTime ≤ c f ∧ V.logFirst = f ∧ V.logLast = t ∧ V.logEnd = 1 ∧ V.log.length = V.eager.length ∧
      (∀ i e, V.log[i]? = some e → ((∃ l, e.link = some l) ↔ 1 + V.logWait ≤ i ∧ i < 1 + V.logWait + r))

theorem LogAt.congr {c : ℕ → ℚ} {b : Bool} {n : ℕ} {V V' : CVeh} (h : LogAt c b n V) (e : V'.key = V.key) :
    LogAt c b n V' := by
  have e1 := congrArg (fun p => p.1) e
  have e2 := congrArg (fun p => p.2.1) e
  have e3 := congrArg (fun p => p.2.2.1) e
  have e4 := congrArg (fun p => p.2.2.2.1) e
  have e5 := congrArg (fun p => p.2.2.2.2.1) e
  have e6 := congrArg (fun p => p.2.2.2.2.2.1) e
  have e7 := congrArg (fun p => p.2.2.2.2.2.2.1) e
  have e8 := congrArg (fun p => p.2.2.2.2.2.2.2) e
  simp only [CVeh.key] at e1 e2 e3 e4 e5 e6 e7 e8
  unfold LogAt at h ⊢
  rw [e1, e2, e3, e4, e5, e6, e7, e8]
  exact h

theorem life_length (f w r : ℕ) : (life f w r).length = 1 + w + r := by
  simp [life]; omega

theorem life_snoc_wait (f w : ℕ) : life f (w + 1) 0 = life f w 0 ++ [(f + 1 + w, VState.wait)] := by
  simp [life, List.range_succ]

theorem life_snoc_run (f w r : ℕ) : life f w (r + 1) = life f w r ++ [(f + 1 + w + r, VState.run)] := by
  simp [life, List.range_succ]

/-- A vehicle after `log_data`. -/
def pushed (T : ℕ) (e : CLog) (V : CVeh) : CVeh :=
  { V with
    log := V.log ++ [e]
    logFirst := if V.log = [] then T else V.logFirst
    logLast := T
    logWait := if V.state = .wait then V.logWait + 1 else V.logWait
    logEnd := if V.state = .ended ∨ V.state = .abort then V.logEnd + 1 else V.logEnd
    eager := V.eager ++ [(T, V.state)] }

theorem logData_pushed {W : CWorld} (hm : W.g.logMode = true) (v : ℕ) (s : Option ℕ) :
    ∃ e : CLog, (e.link = if (W.veh v).state = .run then (W.veh v).link else none) ∧
      ∀ w, (W.logData v s).veh w = if w = v then pushed W.g.timestep e (W.veh w) else W.veh w := by
  refine ⟨(W.logStats v).logEntry v s, by rw [logEntry_link, logStats_veh], fun w => ?_⟩
  unfold logData logPush
  rw [logStats_g, hm, if_pos rfl, setV_veh, logStats_veh]
  split
  · rename_i h; subst h
    rfl
  · rfl

theorem getElem?_snoc {α : Type} {xs : List α} {y z : α} {i : ℕ} (h : (xs ++ [y])[i]? = some z) :
    (i < xs.length ∧ xs[i]? = some z) ∨ (i = xs.length ∧ y = z) := by
  rcases lt_trichotomy i xs.length with h1 | h1 | h1
  · left; exact ⟨h1, by rwa [List.getElem?_append_left h1] at h⟩
  · right; subst h1; simp at h; exact ⟨rfl, h⟩
  · rw [List.getElem?_append_right (by omega)] at h
    rw [List.getElem?_eq_none (by simp; omega)] at h; simp at h

/-- The entry of a waiting vehicle. -/
theorem LogAt.wait {c : ℕ → ℚ} {b : Bool} {T : ℕ} {V : CVeh} {e : CLog} (h : LogAt c b T V)
    (hs : V.state = .wait) (he : e.link = none) : LogAt c true (T + 1) (pushed T e V) := by
  unfold LogAt at h
  simp only [hs] at h
  obtain ⟨f, h1, h2, h3, h4, h5, h6, h7⟩ := h
  have hlog : V.log ≠ [] := fun h0 => by rw [h0, h1, life_length] at h6; simp at h6; omega
  unfold LogAt
  simp only [pushed, hs, if_true, if_neg hlog, reduceCtorEq, or_self, if_false]
  refine ⟨f, ?_, by omega, h3, h4, h5, by simp [h6], ?_⟩
  · rw [life_snoc_wait, h1, h2]
  · intro x hx
    rcases List.mem_append.1 hx with hx | hx
    · exact h7 x hx
    · simp at hx; subst hx; exact he

/-- The entry of a vehicle on the road. -/
theorem LogAt.run {c : ℕ → ℚ} {b : Bool} {T : ℕ} {V : CVeh} {e : CLog} (h : LogAt c b T V)
    (hs : V.state = .run) {l : ℕ} (he : e.link = some l) : LogAt c true (T + 1) (pushed T e V) := by
  unfold LogAt at h
  simp only [hs] at h
  obtain ⟨f, r, h1, h2, h3, h4, h5, h6, h7, h8⟩ := h
  have hlen := life_length f V.logWait r
  have hlog : V.log ≠ [] := fun h0 => by rw [h0, h1, life_length] at h7; simp at h7; omega
  unfold LogAt
  simp only [pushed, hs, if_neg hlog, reduceCtorEq, or_self, if_false]
  refine ⟨f, r + 1, ?_, by omega, by simp, h4, h5, h6, by simp [h7], fun i x hx => ?_⟩
  · rw [life_snoc_run, h1, h2]
  · rcases getElem?_snoc hx with ⟨_, h9⟩ | ⟨h9, h10⟩
    · exact h8 i x h9
    · subst h10
      rw [he, h9, h7, h1, hlen]
      simp

/-- The entry at the end of a trip. -/
theorem LogAt.ends {c : ℕ → ℚ} {b : Bool} {n T : ℕ} {V : CVeh} {e : CLog} {s : VState} (h : LogAt c b n V)
    (hs : V.state = .run) (hn : T + 1 = if b then n else n + 1) (hs' : s = .ended ∨ s = .abort)
    (he : e.link = none) {V' : CVeh} (hv : V'.key = { V with state := s }.key) :
    LogAt c b n (pushed T e V') := by
  have e1 := congrArg (fun p => p.1) hv
  have e2 := congrArg (fun p => p.2.1) hv
  have e3 := congrArg (fun p => p.2.2.1) hv
  have e4 := congrArg (fun p => p.2.2.2.1) hv
  have e5 := congrArg (fun p => p.2.2.2.2.1) hv
  have e6 := congrArg (fun p => p.2.2.2.2.2.1) hv
  have e7 := congrArg (fun p => p.2.2.2.2.2.2.1) hv
  have e8 := congrArg (fun p => p.2.2.2.2.2.2.2) hv
  simp only [CVeh.key] at e1 e2 e3 e4 e5 e6 e7 e8
  unfold LogAt at h
  simp only [hs] at h
  obtain ⟨f, r, h1, h2, h3, h4, h5, h6, h7, h8⟩ := h
  have hlen := life_length f V.logWait r
  have hlog : V.log ≠ [] := fun h0 => by rw [h0, h1, life_length] at h7; simp at h7; omega
  have key : ∃ f r t, V.eager ++ [(T, s)] = life f V.logWait r ++ [(t, s)] ∧
      (t = f + V.logWait + r ∨ t = f + 1 + V.logWait + r) ∧ (t < if b then n else n + 1) ∧
      V.depTime ≤ c f ∧ V.logFirst = f ∧ (T : ℤ) = t ∧ V.logEnd + 1 = 1 ∧
      (V.log ++ [e]).length = (V.eager ++ [(T, s)]).length ∧
      (∀ i x, (V.log ++ [e])[i]? = some x → ((∃ l, x.link = some l) ↔
        1 + V.logWait ≤ i ∧ i < 1 + V.logWait + r)) := by
    refine ⟨f, r, T, by rw [h1], ?_, by omega, h4, h5, rfl, by omega, by simp [h7], fun i x hx => ?_⟩
    · cases b
      · right; simp at hn; omega
      · left; simp at hn; omega
    · rcases getElem?_snoc hx with ⟨h9, h9'⟩ | ⟨h9, h10⟩
      · rw [h8 i x h9']
        rw [h7, h1, hlen] at h9
        omega
      · subst h10
        rw [he, h9, h7, h1, hlen]
        simp
  rcases hs' with rfl | rfl
  all_goals
    unfold LogAt
    simp only [pushed, e1, e2, e3, e4, e5, e6, e7, e8, if_neg hlog, reduceCtorEq, or_true, true_or,
      if_true, if_false]
    exact key

/-- The entry at departure. -/
theorem LogAt.home {c : ℕ → ℚ} {b : Bool} {n T : ℕ} {V V' : CVeh} {e : CLog} (h : LogAt c b n V)
    (hs : V.state = .home) (he : e.link = none) (hd : V.depTime ≤ c T)
    (hv : V'.key = { pushed T e V with state := .wait }.key) : LogAt c true (T + 1) V' := by
  refine LogAt.congr ?_ hv
  unfold LogAt at h
  simp only [hs] at h
  obtain ⟨h1, h2, h3, h4⟩ := h
  unfold LogAt
  simp only [pushed, hs, h1, h2, h3, h4, reduceCtorEq, or_self, if_false, if_true]
  exact ⟨T, by simp [life], rfl, hd, rfl, trivial, by simp, by simp [he]⟩

/-- A vehicle gets on the road. -/
theorem LogAt.depart {c : ℕ → ℚ} {n : ℕ} {V V' : CVeh} (h : LogAt c false n V)
    (hs : V.state = .wait) (hv : V'.key = { V with state := .run }.key) : LogAt c false n V' := by
  refine LogAt.congr ?_ hv
  unfold LogAt at h
  simp only [hs] at h
  obtain ⟨f, h1, h2, h3, h4, h5, h6, h7⟩ := h
  unfold LogAt
  simp only
  refine ⟨f, 0, h1, by omega, by simp, h3, h4, h5, h6, fun i x hx => ?_⟩
  have hlt : i < V.log.length := by
    by_contra hc
    rw [List.getElem?_eq_none (by omega)] at hx; simp at hx
  rw [h6, h1, life_length] at hlt
  rw [h7 x (List.mem_of_getElem? hx)]
  simp; omega

theorem LogAt.next {c : ℕ → ℚ} {n : ℕ} {V : CVeh} (h : LogAt c true n V) : LogAt c false n V := by
  unfold LogAt at h ⊢
  split at h
  · exact h
  · exact h
  · obtain ⟨f, r, h1, h2, _, h⟩ := h
    exact ⟨f, r, h1, h2, by simp, h⟩
  · obtain ⟨f, r, t, h1, h2, h3, h⟩ := h
    simp only [if_true] at h3
    exact ⟨f, r, t, h1, h2, by simp; omega, h⟩

/-- A vehicle at home or with a finished trip makes no entry. -/
theorem LogAt.idle {c : ℕ → ℚ} {n : ℕ} {V : CVeh} (h : LogAt c false n V) (h1 : V.state ≠ .wait)
    (h2 : V.state ≠ .run) : LogAt c true (n + 1) V := by
  unfold LogAt at h ⊢
  split at h
  · exact h
  · rename_i hs; exact absurd hs h1
  · rename_i hs; exact absurd hs h2
  · obtain ⟨f, r, t, a, b, d, h⟩ := h
    exact ⟨f, r, t, a, b, by simpa using d, h⟩

/-! ## Actions -/

theorem setV_key (W : CWorld) (v : ℕ) (f : CVeh → CVeh) (h : ∀ V, (f V).key = V.key) (w : ℕ) :
    ((W.setV v f).veh w).key = (W.veh w).key := by
  rw [setV_veh]; split
  · rename_i e; subst e; exact h _
  · rfl

theorem endTripOn_key_ne (W : CWorld) {v l w : ℕ} (h : w ≠ v) :
    ((W.endTripOn v l).veh w).key = (W.veh w).key := by
  rw [endTripOn_veh_ne W v l w h]; rfl

theorem endTripOn_logAt {c : ℕ → ℚ} {b : Bool} {n : ℕ} {W : CWorld} (hm : W.g.logMode = true) {v l : ℕ}
    (hs : (W.veh v).state = .run) (hn : W.g.timestep + 1 = if b then n else n + 1)
    (h : LogAt c b n (W.veh v)) : LogAt c b n ((W.endTripOn v l).veh v) := by
  unfold CWorld.endTripOn
  extract_lets W1 W2 W3
  have hg : W3.g = W.g := by
    show W2.g = W.g
    exact detach_g _ _
  obtain ⟨e, e1, e2⟩ := logData_pushed (W := W3) (by rw [hg]; exact hm) v none
  rw [e2, if_pos rfl, hg]
  have e3 : W3.veh v = { W2.veh v with
      state := if (W2.veh v).flagAbort then .abort else .ended
      arrTimeLink := W.now
      arrivalTime := if (W2.veh v).flagAbort then -1 else W.now
      travelTime := if (W2.veh v).flagAbort then -1 else W.g.fl (W.now - (W2.veh v).depTime)
      link := none, x := 0, flagWait := false } := by
    show (W2.setV v _).veh v = _
    rw [setV_veh, if_pos rfl]
  have e4 : (W2.veh v).key = (W.veh v).key := by
    show ((W1.detach v).veh v).key = _
    rw [detach_veh]; rfl
  have e5 : (if (W2.veh v).flagAbort = true then VState.abort else VState.ended) = .ended ∨
      (if (W2.veh v).flagAbort = true then VState.abort else VState.ended) = .abort := by
    by_cases hb : (W2.veh v).flagAbort = true
    · exact Or.inr (if_pos hb)
    · exact Or.inl (if_neg hb)
  have e6 : (W3.veh v).link = none := by rw [e3]
  refine LogAt.ends h hs hn e5 (by rw [e1, e6]; split <;> rfl) ?_
  rw [e3]
  have e7 := congrArg (fun p => p.2) e4
  simp only [CVeh.key] at e7 ⊢
  rw [e7]

theorem waitEnd_key_ne (W : CWorld) {v l w : ℕ} (h : w ≠ v) :
    ((W.waitEnd v l).veh w).key = (W.veh w).key := by
  unfold CWorld.waitEnd
  extract_lets W1
  have e1 : (W1.veh w).key = (W.veh w).key := setV_key _ _ _ (by intro V; rfl) _
  split
  · unfold CWorld.endTrip
    split
    · exact e1
    · rw [endTripOn_key_ne _ h]; exact e1
  · exact e1

theorem request_key (W : CWorld) (v l w : ℕ) : ((W.request v l).veh w).key = (W.veh w).key := by
  unfold CWorld.request
  split
  · rfl
  · rw [setL_veh]; exact setV_key _ _ _ (by intro V; rfl) _

theorem atEnd_key_ne (W : CWorld) {v l w : ℕ} (h : w ≠ v) :
    ((W.atEnd v l).veh w).key = (W.veh w).key := by
  unfold CWorld.atEnd
  split
  · exact waitEnd_key_ne W h
  · split
    · rw [waitEnd_key_ne _ h]; exact setV_key _ _ _ (by intro V; rfl) _
    · exact request_key W v l w

theorem waitEnd_logAt {c : ℕ → ℚ} {W : CWorld} (hm : W.g.logMode = true) {v l : ℕ}
    (hs : (W.veh v).state = .run) (h : LogAt c true (W.g.timestep + 1) (W.veh v)) :
    LogAt c true (W.g.timestep + 1) ((W.waitEnd v l).veh v) := by
  unfold CWorld.waitEnd
  extract_lets W1
  have e1 : (W1.veh v).key = (W.veh v).key := setV_key _ _ _ (by intro V; rfl) _
  have e2 : (W1.veh v).state = .run := by
    have := congrArg (fun p => p.1) e1
    exact this.trans hs
  split
  · unfold CWorld.endTrip
    split
    · exact h.congr e1
    · exact endTripOn_logAt (W := W1) hm e2 (by simp; rfl) (h.congr e1)
  · exact h.congr e1

theorem atEnd_logAt {c : ℕ → ℚ} {W : CWorld} (hm : W.g.logMode = true) {v l : ℕ}
    (hs : (W.veh v).state = .run) (h : LogAt c true (W.g.timestep + 1) (W.veh v)) :
    LogAt c true (W.g.timestep + 1) ((W.atEnd v l).veh v) := by
  unfold CWorld.atEnd
  split
  · exact waitEnd_logAt hm hs h
  · split
    · have e1 : ((W.setV v (fun V => { V with flagAbort := true, next := none })).veh v).key =
        (W.veh v).key := setV_key _ _ _ (by intro V; rfl) _
      refine waitEnd_logAt (W := W.setV v (fun V => { V with flagAbort := true, next := none })) hm ?_
        (h.congr e1)
      have := congrArg (fun p => p.1) e1
      exact this.trans hs
    · exact h.congr (request_key W v l v)

theorem vehUpdate_key_ne (W : CWorld) {v w : ℕ} {s : Option ℕ} (hs : (W.veh v).state = .run) (h : w ≠ v) :
    ((W.vehUpdate v s).veh w).key = (W.veh w).key := by
  have e0 : ((W.logData v s).veh w).key = (W.veh w).key := by rw [logData_veh_of_ne _ _ _ _ h]
  have e1 : (((W.logData v s).advance v).veh w).key = (W.veh w).key :=
    (setV_key _ _ _ (by intro V; rfl) _).trans e0
  have hst1 : ((W.logData v s).veh v).state = .run := by rw [core_state (core_logData W v s)]; exact hs
  unfold CWorld.vehUpdate
  simp only [hst1]
  split
  · exact e1
  · split
    · rw [atEnd_key_ne _ h]; exact e1
    · exact e1

theorem vehUpdate_logAt {c : ℕ → ℚ} {b : Bool} {W : CWorld} (hm : W.g.logMode = true) {v l : ℕ} {s : Option ℕ}
    (hs : (W.veh v).state = .run) (hl : (W.veh v).link = some l) (h : LogAt c b W.g.timestep (W.veh v)) :
    LogAt c true (W.g.timestep + 1) ((W.vehUpdate v s).veh v) := by
  obtain ⟨e, e1, e2⟩ := logData_pushed hm v s
  have hst1 : ((W.logData v s).veh v).state = .run := by rw [core_state (core_logData W v s)]; exact hs
  have h1 : LogAt c true (W.g.timestep + 1) ((W.logData v s).veh v) := by
    rw [e2, if_pos rfl]
    rw [if_pos hs, hl] at e1
    exact h.run hs e1
  have k2 : (((W.logData v s).advance v).veh v).key = ((W.logData v s).veh v).key :=
    setV_key _ _ _ (by intro V; rfl) _
  have hs2 : (((W.logData v s).advance v).veh v).state = .run := by
    have := congrArg (fun p => p.1) k2
    exact this.trans hst1
  have hg : ((W.logData v s).advance v).g = W.g := (samePar_logData W v s).2
  unfold CWorld.vehUpdate
  simp only [hst1]
  split
  · exact h1.congr k2
  · split
    · rename_i l' _ _
      have := atEnd_logAt (c := c) (W := (W.logData v s).advance v) (l := l') (by rw [hg]; exact hm) hs2
        (by rw [hg]; exact h1.congr k2)
      rw [hg] at this
      exact this
    · exact h1.congr k2

/-- The rule for logs: before and after the entry of the present time step. -/
def LogP (b : Bool) (W : CWorld) (w : ℕ) : Prop :=
  W.g.logMode = true ∧
    (w < W.g.nVehs → LogAt (clockAt W) b (W.g.timestep + if b then 1 else 0) (W.veh w))

theorem LogP.key {b : Bool} {W W' : CWorld} {w : ℕ} (h : LogP b W w) (hg : W'.g = W.g)
    (hk : (W'.veh w).key = (W.veh w).key) : LogP b W' w := by
  unfold LogP clockAt at *
  rw [hg]
  exact ⟨h.1, fun hw => (h.2 hw).congr hk⟩

theorem LogP.endTrip {W : CWorld} {v l w : ℕ} (hs : (W.veh v).state = .run) (hg : (W.endTripOn v l).g = W.g)
    (h : LogP false W w) : LogP false (W.endTripOn v l) w := by
  by_cases e : w = v
  · subst e
    unfold LogP clockAt at *
    rw [hg]
    exact ⟨h.1, fun hw => endTripOn_logAt h.1 hs (by simp) (h.2 hw)⟩
  · exact h.key hg (endTripOn_key_ne W e)

theorem LogP.act {s : Stage} {W W' : CWorld} (hs : s = .gen ∨ s = .trans ∨ s = .follow) (a : Act s W W')
    (w : ℕ) (h : LogP false W w) : LogP false W' w := by
  have hg := a.keep.g
  cases a with
  | genErr _ n e => exact h.key hg rfl
  | choose _ n v t o rng i hi hq hc =>
    exact h.key hg (setV_key _ _ _ (by intro V; rfl) _)
  | depart _ n v l t i hi hq hl hn hc =>
    obtain ⟨hvn, hst, hor⟩ := (i.gen n v).1 (by rw [hq]; simp)
    have hnot : ∀ m, v ∉ (W.link m).vehs := fun m hm => by
      have := (i.mem m v hm).2.1; rw [hst] at this; simp at this
    have ev : ((W.depart n v l).veh w).key =
        if w = v then CVeh.key { W.veh w with state := .run } else (W.veh w).key := by
      simp only [CWorld.depart, setL_veh]
      rw [attach_veh _ _ _ _ (by simpa using hnot l)]
      simp only [setV_veh, setN_veh]
      split
      · rename_i e; subst e; rfl
      · rfl
    by_cases e : w = v
    · subst e
      rw [if_pos rfl] at ev
      unfold LogP clockAt at *
      rw [hg]
      exact ⟨h.1, fun hw => (h.2 hw).depart hst ev⟩
    · rw [if_neg e] at ev; exact h.key hg ev
  | signal _ n => exact h.key hg rfl
  | flow _ n => exact h.key hg rfl
  | collect _ n i hi => exact h.key hg (by rw [collect_veh])
  | draw _ n rng => exact h.key hg rfl
  | move _ n v a b t k ha hq hb hn hf hc hr ho hs =>
    have i := k.inv
    have hm : ∀ w, ((W.moved n v a b).veh w).key = (W.veh w).key := fun w => by
      by_cases e : w = v
      · subst e
        obtain ⟨ln, ld, q, e⟩ := moved_veh_self (n := n) (b := b) i hq
        rw [e]; rfl
      · rw [moved_veh_other (n := n) (b := b) i hq w e]; rfl
    have h1 : LogP false (W.moved n v a b) w := h.key (moved_g ..) (hm w)
    have hv0 : (W.moveVeh n v a b).veh = ((W.moved n v a b).endFront a).1.veh := rfl
    have hg0 : (W.moveVeh n v a b).g = ((W.moved n v a b).endFront a).1.g := rfl
    rcases moved_endFront (n := n) (b := b) i hq with e | ⟨h', t', e1, hne, hfh, e⟩
    · refine h1.key (by rw [hg0, e]) (by rw [hv0, e])
    · have h2 : LogP false ((W.moved n v a b).endTripOn h' a) w := by
        refine h1.endTrip ?_ (by rw [← e, ← hg0, hg, moved_g])
        have e3 := congrArg (fun p => p.1) (hm h')
        exact e3.trans (i.mem a h' (by rw [hq, e1]; simp)).2.1
      exact h2.key (by rw [hg0, e]) (by rw [hv0, e])
  | endFront _ v l t i hq hna hni hf => exact h.endTrip (i.mem l v (by rw [hq]; simp)).2.1 hg
  | finish _ n => exact h.key hg rfl
  | follow _ v l i hv =>
    refine h.key hg ?_
    unfold carFollow
    split
    · rfl
    · split <;> exact setV_key _ _ _ (by intro V; rfl) _
  | log _ v l s i hv => simp at hs
  | advance _ v l i hv => simp at hs
  | abort _ v l i hv hd ho ha => simp at hs
  | flag _ v l i hv hc => simp at hs
  | endRun _ v l t i hq hna hi hf => simp at hs
  | reqErr _ l e => simp at hs
  | req _ v l o rng i hv hd hc => simp at hs
  | waitLog _ n v i hv => simp at hs

theorem logRule : PassRule (LogP false) (LogP true) where
  update W l w h := h.key rfl rfl
  act s W W' hs a w h := h.act hs a w
  run W v l s i hinc hv hna h := by
    have hg := (i.vehRun (s := s) hinc hv hna).keep.g
    unfold LogP clockAt at *
    rw [hg]
    exact ⟨h.1, fun hw => vehUpdate_logAt h.1 (i.mem l v hv).2.1 (i.mem l v hv).1 (h.2 hw)⟩
  runP W v l s i hinc hv hna w hw h :=
    h.key (i.vehRun (s := s) hinc hv hna).keep.g (vehUpdate_key_ne W (i.mem l v hv).2.1 hw)
  runQ W v l s i hinc hv hna w hw h :=
    h.key (i.vehRun (s := s) hinc hv hna).keep.g (vehUpdate_key_ne W (i.mem l v hv).2.1 hw)
  wait W v hs h := by
    have hg : (W.logData v none).g = W.g := (samePar_logData W v none).2
    obtain ⟨e, e1, e2⟩ := logData_pushed h.1 v none
    have he : e.link = none := by rw [e1, hs]; rfl
    unfold LogP clockAt at *
    rw [hg, e2]
    simp only [if_true]
    exact ⟨h.1, fun hw => LogAt.wait (h.2 hw) hs he⟩
  waitP W v w hw h := h.key (samePar_logData W v none).2 (by rw [logData_veh_of_ne _ _ _ _ hw])
  waitQ W v w hw h := h.key (samePar_logData W v none).2 (by rw [logData_veh_of_ne _ _ _ _ hw])

end UX.Cpp
