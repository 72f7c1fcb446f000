import Verif.Proofs.CppEntries
import Verif.Proofs.CppLogRun
import Verif.Spec.CppStats

/-!
# Statistics of the C++ engine: every event
-/

namespace UX.Cpp
open CWorld Relation Spec

/-- Statistics of a link. -/
def CLink.tally (L : CLink) : ℚ × ℚ × ℚ := (L.aveV, L.aveVr, L.stat)

/-- Nothing that counts is written into the log. -/
def Hush (V V' : CVeh) : Prop :=
  V'.logWait = V.logWait ∧ ∃ es : List CLog, V'.log = V.log ++ es ∧ ∀ e ∈ es, e.link = none

theorem Hush.refl (V : CVeh) : Hush V V := ⟨rfl, [], by simp, by simp⟩

theorem Hush.of {V V' : CVeh} (h : (V'.logWait, V'.log) = (V.logWait, V.log)) : Hush V V' := by
  simp only [Prod.mk.injEq] at h
  exact ⟨h.1, [], by rw [h.2]; simp, by simp⟩

theorem Hush.trans {V V' V'' : CVeh} (h : Hush V V') (h' : Hush V' V'') : Hush V V'' := by
  obtain ⟨a, es, b, c⟩ := h
  obtain ⟨a', es', b', c'⟩ := h'
  refine ⟨a'.trans a, es ++ es', by rw [b', b, List.append_assoc], fun e he => ?_⟩
  rcases List.mem_append.1 he with h | h
  · exact c e h
  · exact c' e h

/-- Statistics stay and nothing that counts is written into logs. -/
structure Uncounted (W W' : CWorld) : Prop where
  link : ∀ l, (W'.link l).tally = (W.link l).tally
  node : ∀ n, (W'.node n).stat = (W.node n).stat
  veh : ∀ v, Hush (W.veh v) (W'.veh v)

theorem Uncounted.refl (W : CWorld) : Uncounted W W := ⟨fun _ => rfl, fun _ => rfl, fun _ => Hush.refl _⟩

theorem Uncounted.trans {W W' W'' : CWorld} (h : Uncounted W W') (h' : Uncounted W' W'') : Uncounted W W'' :=
  ⟨fun l => (h'.link l).trans (h.link l), fun n => (h'.node n).trans (h.node n),
    fun v => (h.veh v).trans (h'.veh v)⟩

theorem unc_setL (W : CWorld) (m : ℕ) {f : CLink → CLink} (hf : ∀ L, (f L).tally = L.tally) : Uncounted W (W.setL m f) := by
  refine ⟨fun l => ?_, fun _ => rfl, fun _ => Hush.refl _⟩
  rw [setL_link]; split
  · rename_i e; subst e; exact hf _
  · rfl

theorem unc_setN (W : CWorld) (m : ℕ) {f : CNode → CNode} (hf : ∀ N, (f N).stat = N.stat) : Uncounted W (W.setN m f) := by
  refine ⟨fun _ => rfl, fun l => ?_, fun _ => Hush.refl _⟩
  rw [setN_node]; split
  · rename_i e; subst e; exact hf _
  · rfl

theorem unc_setV (W : CWorld) (m : ℕ) {f : CVeh → CVeh} (hf : ∀ V, ((f V).logWait, (f V).log) = (V.logWait, V.log)) :
    Uncounted W (W.setV m f) := by
  refine ⟨fun _ => rfl, fun _ => rfl, fun l => ?_⟩
  rw [setV_veh]; split
  · rename_i e; subst e; exact Hush.of (hf _)
  · exact Hush.refl _

theorem unc_detach (W : CWorld) (v : ℕ) : Uncounted W (W.detach v) := by
  unfold detach; split
  · exact unc_setV _ _ (by intro V; rfl)
  · exact .refl _

theorem unc_attach (W : CWorld) (v l : ℕ) : Uncounted W (W.attach v l) := by
  unfold attach; extract_lets q lane W1
  have h1 : Uncounted W W1 := unc_setV _ _ (by intro V; rfl)
  split
  · split
    · rename_i u _
      exact (h1.trans (unc_setV W1 v (f := fun V => { V with leader := some u }) (by intro V; rfl))).trans
        (unc_setV _ _ (by intro V; rfl))
    · exact h1
  · exact h1

/-- An entry of a vehicle at home or at the end of its trip. -/
theorem unc_logData (W : CWorld) (v : ℕ) (s : Option ℕ) (h : (W.veh v).state ≠ .run) (hw : (W.veh v).state ≠ .wait) :
    Uncounted W (W.logData v s) := by
  have h1 : W.logStats v = W := by
    unfold logStats; split
    · rename_i e _; exact absurd e h
    · rename_i e; exact absurd e hw
    · rfl
  unfold logData logPush
  rw [h1]
  split
  · refine ⟨fun _ => rfl, fun _ => rfl, fun w => ?_⟩
    rw [setV_veh]; split
    · rename_i e; subst e
      refine ⟨?_, [_], rfl, ?_⟩
      · simp only [if_neg hw]
      · intro e he
        rw [List.mem_singleton.1 he]
        unfold logEntry; rw [if_neg h]
    · exact Hush.refl _
  · exact .refl _

theorem unc_endTripOn (W : CWorld) (v l : ℕ) : Uncounted W (W.endTripOn v l) := by
  unfold endTripOn; extract_lets W1 W2 W3
  have h1 : Uncounted W W1 := unc_setL W l (by intro L; rfl)
  have h2 : Uncounted W1 W2 := unc_detach W1 v
  have h3 : Uncounted W2 W3 := unc_setV _ _ (by intro V; rfl)
  have hst : (W3.veh v).state = .abort ∨ (W3.veh v).state = .ended := by
    show ((W2.setV v _).veh v).state = _ ∨ ((W2.setV v _).veh v).state = _
    rw [setV_veh, if_pos rfl]
    simp only
    split <;> simp
  exact ((h1.trans h2).trans h3).trans (unc_logData W3 v none (by rcases hst with h | h <;> simp [h])
    (by rcases hst with h | h <;> simp [h]))

theorem unc_endFront (W : CWorld) (l : ℕ) : Uncounted W (W.endFront l).1 := by
  unfold endFront
  split
  · exact .refl _
  · split
    · unfold endTrip; split
      · exact .refl _
      · exact unc_endTripOn _ _ _
    · exact .refl _

theorem unc_leave (W : CWorld) (n v a b : ℕ) : Uncounted W (W.leave n v a b) := by
  unfold leave; extract_lets W1 W2 W3
  have h1 : Uncounted W W1 := unc_setL W a (by intro L; rfl)
  have h2 : Uncounted W1 W2 := unc_setL W1 b (by intro L; rfl)
  have h3 : Uncounted W2 W3 := by
    show Uncounted W2 (if _ then _ else _)
    split
    · exact unc_setN _ _ (by intro N; rfl)
    · exact .refl _
  exact (((h1.trans h2).trans h3).trans (unc_detach W3 v)).trans (unc_setV _ _ (by intro V; rfl))

/-- Statistics and logs change together. -/
inductive Tally (W W' : CWorld) : Prop
  | still (h : Uncounted W W')
  | run (v l : ℕ) (hv : v < W.g.nVehs) (hl : l < W.g.nLinks) (e : CLog) (he : e.link = some l)
      (link : ∀ m, (W'.link m).tally = if m = l then (W.g.fl ((W.link l).aveV + e.v),
        W.g.fl ((W.link l).aveVr + W.g.fl (e.v / (W.link l).vmax)), W.g.fl ((W.link l).stat + 1)) else (W.link m).tally)
      (node : ∀ n, (W'.node n).stat = (W.node n).stat)
      (veh : ∀ w, (W'.veh w).logWait = (W.veh w).logWait ∧
        (W'.veh w).log = if w = v then (W.veh v).log ++ [e] else (W.veh w).log)
  | wait (v : ℕ) (hv : v < W.g.nVehs) (link : ∀ m, (W'.link m).tally = (W.link m).tally)
      (node : ∀ n, (W'.node n).stat = if n = (W.veh v).orig then W.g.fl ((W.node n).stat + 1) else (W.node n).stat)
      (e : CLog) (he : e.link = none)
      (veh : ∀ w, (W'.veh w).logWait = (if w = v then (W.veh v).logWait + 1 else (W.veh w).logWait) ∧
        (W'.veh w).log = if w = v then (W.veh v).log ++ [e] else (W.veh w).log)

theorem tally_run {W : CWorld} (hm : W.g.logMode = true) {v l : ℕ} (s : Option ℕ) (i : Inv W none none)
    (hv : v ∈ (W.link l).vehs) : Tally W (W.logData v s) := by
  obtain ⟨hl, hs, hln, hvn, _⟩ := i.mem l v hv
  refine .run v l hvn hln (W.logEntry v s) (by unfold logEntry; rw [if_pos hs]; exact hl) ?_ ?_ ?_
  · intro m
    have e : ∀ m, ((W.logData v s).link m) = ((W.logStats v).link m) := fun m => by
      unfold logData logPush; split <;> rfl
    rw [e, show W.logStats v = _ from by unfold logStats; rw [hs, hl], setL_link]
    have ev : (W.logEntry v s).v = (W.veh v).v := by unfold logEntry; rw [if_pos hs]
    split
    · rename_i e; subst e; rw [ev]; rfl
    · rfl
  · intro n
    unfold logData logPush
    have : (W.logStats v).node = W.node := by unfold logStats; rw [hs, hl]; rfl
    split
    · rw [setV_node, this]
    · rw [this]
  · intro w
    by_cases hw : w = v
    · subst hw
      rw [if_pos rfl]
      unfold logData logPush
      have e : (W.logStats w).logEntry w s = W.logEntry w s := by
        unfold logEntry logSpacing
        simp only [logStats_veh, logStats_g]
      rw [logStats_g, hm, if_pos rfl, setV_veh, if_pos rfl, logStats_veh, e]
      refine ⟨?_, rfl⟩
      simp only [hs, reduceCtorEq, if_false]
    · rw [if_neg hw, logData_veh_of_ne W v w s hw]
      exact ⟨rfl, rfl⟩

theorem tally_wait {W : CWorld} (hm : W.g.logMode = true) {v n : ℕ} (i : Inv W none none)
    (hv : v ∈ (W.node n).genQ) : Tally W (W.logData v none) := by
  obtain ⟨hvn, hs, _⟩ := (i.gen n v).1 hv
  have hst : W.logStats v = W.setN (W.veh v).orig (fun N => { N with stat := W.g.fl (N.stat + 1) }) := by
    unfold logStats; rw [hs]
  refine .wait v hvn ?_ ?_ (W.logEntry v none) (by unfold logEntry; rw [hs]; rfl) ?_
  · intro m
    unfold logData logPush; rw [hst]; split <;> rfl
  · intro m
    unfold logData logPush; rw [hst]
    have : ((W.setN (W.veh v).orig (fun N => { N with stat := W.g.fl (N.stat + 1) })).node m).stat =
        if m = (W.veh v).orig then W.g.fl ((W.node m).stat + 1) else (W.node m).stat := by
      rw [setN_node]; split
      · rename_i e; subst e; rfl
      · rfl
    split
    · rw [setV_node]; exact this
    · exact this
  · intro w
    by_cases hw : w = v
    · subst hw
      rw [if_pos rfl, if_pos rfl]
      unfold logData logPush
      have e : (W.logStats w).logEntry w none = W.logEntry w none := by
        unfold logEntry logSpacing
        simp only [logStats_veh, logStats_g]
      rw [logStats_g, hm, if_pos rfl, setV_veh, if_pos rfl, logStats_veh, e]
      refine ⟨?_, rfl⟩
      simp only [hs, if_true]
    · rw [if_neg hw, if_neg hw, logData_veh_of_ne W v w none hw]
      exact ⟨rfl, rfl⟩

theorem Act.tally {s : Stage} {W W' : CWorld} (a : Act s W W') (hm : W.g.logMode = true) : Tally W W' := by
  cases a with
  | genErr _ n e => exact .still (unc_setN _ _ (by intro N; rfl))
  | choose _ n v t o rng i hi hq hc =>
    exact .still ((unc_setN W n (f := fun N => { N with rng := rng }) (by intro N; rfl)).trans (unc_setV _ _ (by intro V; rfl)))
  | depart _ n v l t i hi hq hl hn hc hch =>
    refine .still ?_
    unfold CWorld.depart; extract_lets W1 W2
    have h1 : Uncounted W W1 := unc_setN _ _ (by intro N; rfl)
    have h2 : Uncounted W1 W2 := unc_setV _ _ (by intro V; rfl)
    exact ((h1.trans h2).trans (unc_attach W2 v l)).trans (unc_setL _ l (by intro L; rfl))
  | signal _ n =>
    refine .still ?_
    unfold signalUpdate; extract_lets N sw ph t
    exact unc_setN _ _ (by intro N; rfl)
  | flow _ n => exact .still (unc_setN _ _ (by intro N; rfl))
  | collect _ n i hi =>
    have : ∀ (xs : List ℕ) (X : CWorld),
        Uncounted X (xs.foldl (fun W a => W.setL a (fun L => { L with arrived := [] })) X) := by
      intro xs
      induction xs with
      | nil => exact fun X => .refl _
      | cons a t ih => exact fun X => (unc_setL X a (by intro L; rfl)).trans (ih _)
    refine .still ?_
    unfold CWorld.collect; extract_lets inc W1
    exact (this (W.node n).inLinks W).trans (unc_setN W1 n (by intro N; rfl))
  | draw _ n rng => exact .still (unc_setN _ _ (by intro N; rfl))
  | move _ n v a b t k ha hq hb hn hf hc hr ho hs hm =>
    refine .still ?_
    unfold CWorld.moveVeh; extract_lets W2 W3 W4
    have h1 : Uncounted W W2 := (unc_leave W n v a b).trans (unc_attach _ v b)
    have h2 : Uncounted W2 W3 := unc_setV _ _ (by intro V; rfl)
    have h3 : Uncounted W3 W4 := unc_endFront W3 a
    exact ((h1.trans h2).trans h3).trans (Uncounted.trans (unc_setL W4 b (f := fun L => { L with vehs := L.vehs ++ [v] })
      (by intro L; rfl)) (unc_setN _ _ (by intro N; rfl)))
  | endFront _ v l t i hq hna hni hf => exact .still (unc_endTripOn W v l)
  | finish _ n => exact .still (unc_setN _ _ (by intro N; rfl))
  | follow _ v l i hv =>
    refine .still ?_
    unfold carFollow; split
    · exact .refl _
    · split <;> exact unc_setV _ _ (by intro V; rfl)
  | log _ v l s i hv => exact tally_run hm s i hv
  | advance _ v l i hv => exact .still (unc_setV _ _ (by intro V; rfl))
  | abort _ v l i hv hd ho ha => exact .still (unc_setV _ _ (by intro V; rfl))
  | flag _ v l i hv hc => exact .still (unc_setV _ _ (by intro V; rfl))
  | endRun _ v l t i hq hna hi hf => exact .still (unc_endTripOn W v l)
  | reqErr _ l e => exact .still (unc_setL W l (by intro L; rfl))
  | req _ v l o rng i hv hd hc hx hlg =>
    exact .still ((unc_setV W v (f := fun V => { V with next := o }) (by intro V; rfl)).trans (unc_setL _ l (by intro L; rfl)))
  | waitLog _ n v i hv => exact tally_wait hm i hv

theorem Ev.tally {W W' : CWorld} (e : Ev W W') (hm : W.g.logMode = true) : Tally W W' := by
  cases e with
  | act a => exact a.tally hm
  | clear => exact .still ⟨fun l => rfl, fun n => rfl, fun _ => Hush.refl _⟩
  | update l => exact .still (unc_setL _ _ (by intro L; rfl))
  | home v r hv hs =>
    have h := unc_logData W v none (by rw [hs]; simp) (by rw [hs]; simp)
    have h1 : ((W.logData v none).veh v).state = .home := by rw [core_state (core_logData W v none)]; exact hs
    refine .still ?_
    unfold vehUpdate
    simp only [h1]
    split
    · exact (h.trans (unc_setV _ v (f := fun V => { V with state := .wait }) (by intro V; rfl))).trans
        (unc_setN _ _ (by intro N; rfl))
    · exact h
  | reconcile r =>
    refine .still ⟨fun l => ?_, fun n => ?_, fun _ => Hush.refl _⟩
    · rw [reconcile_link]; rfl
    · simp only [CWorld.reconcile]; split <;> rfl
  | route r =>
    refine .still ⟨fun l => ?_, fun n => ?_, fun w => ?_⟩
    · obtain ⟨q, h⟩ := routeStep_link W l; rw [h]; rfl
    · rw [(routeStep_same W).2.2.2.2.2.2.2.1]
    · rw [(routeStep_same W).2.1]; exact Hush.refl _
  | tick r => exact .still ⟨fun l => rfl, fun n => rfl, fun _ => Hush.refl _⟩

end UX.Cpp
