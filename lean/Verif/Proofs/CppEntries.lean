import Verif.Proofs.CppArr

/-!
# What a vehicle writes into its log
-/

namespace UX.Cpp
open CWorld Relation Spec

/-- The entry of a vehicle that is not on a link. -/
def CLog.Blank (e : CLog) : Prop := e.link = none ∧ e.x = -1 ∧ e.v = -1 ∧ e.lane = -1 ∧ e.s = -1

/-- The entry shows the vehicle `w` on link `l`. -/
def CLog.Shows (e : CLog) (W : CWorld) (w l : ℕ) : Prop :=
  w ∈ (W.link l).vehs ∧ l < W.g.nLinks ∧ e.link = some l ∧ e.x = (W.veh w).x ∧ e.v = (W.veh w).v ∧
    e.lane = (W.veh w).lane

/-- At most one entry is written. -/
def Wrote (W : CWorld) (w : ℕ) (V' : CVeh) : Prop :=
  V'.log = (W.veh w).log ∨ ∃ e : CLog, V'.log = (W.veh w).log ++ [e] ∧ (e.Blank ∨ ∃ l, e.Shows W w l)

theorem logData_self (W : CWorld) (v : ℕ) (s : Option ℕ) :
    ((W.logData v s).veh v).log = (W.veh v).log ∨ ((W.logData v s).veh v).log = (W.veh v).log ++ [W.logEntry v s] := by
  unfold logData logPush
  split
  · right
    rw [setV_veh, if_pos rfl]
    show ((W.logStats v).veh v).log ++ _ = _
    have e : (W.logStats v).logEntry v s = W.logEntry v s := by
      unfold logEntry logSpacing
      simp only [logStats_veh, logStats_g]
    rw [e, logStats_veh]
  · left; rw [logStats_veh]

theorem Wrote.logData (W : CWorld) (v : ℕ) (s : Option ℕ) (w : ℕ)
    (h : (W.veh v).state ≠ .run ∨ ∃ l, Inv W none none ∧ v ∈ (W.link l).vehs) : Wrote W w ((W.logData v s).veh w) := by
  by_cases hw : w = v
  · subst hw
    rcases logData_self W w s with e | e
    · exact Or.inl e
    · refine Or.inr ⟨_, e, ?_⟩
      unfold logEntry
      split
      · rename_i hr
        obtain ⟨l, i, hv⟩ := h.resolve_left (by simp [hr])
        obtain ⟨a, _, b, _⟩ := i.mem l w hv
        exact Or.inr ⟨l, hv, b, a, rfl, rfl, rfl⟩
      · exact Or.inl ⟨rfl, rfl, rfl, rfl, rfl⟩
  · exact Or.inl (by rw [logData_veh_of_ne W v w s hw])

theorem Wrote.endTripOn (W : CWorld) (v l w : ℕ) :
    ((W.endTripOn v l).veh w).log = (W.veh w).log ∨
      ∃ e : CLog, ((W.endTripOn v l).veh w).log = (W.veh w).log ++ [e] ∧ e.Blank := by
  by_cases hw : w = v
  · subst hw
    unfold CWorld.endTripOn
    extract_lets W1 W2 W3
    have e3 : (W3.veh w).log = (W2.veh w).log := by
      show ((W2.setV w _).veh w).log = _
      rw [setV_veh, if_pos rfl]
    have e4 : (W2.veh w).log = (W.veh w).log := by
      show ((W1.detach w).veh w).log = _
      rw [detach_veh]; rfl
    have hst : (W3.veh w).state ≠ .run := by
      show ((W2.setV w _).veh w).state ≠ _
      rw [setV_veh, if_pos rfl]
      simp only
      split <;> simp
    rcases logData_self W3 w none with e | e
    · exact Or.inl (by rw [e, e3, e4])
    · refine Or.inr ⟨_, by rw [e, e3, e4], ?_⟩
      unfold logEntry
      rw [if_neg hst]
      exact ⟨rfl, rfl, rfl, rfl, rfl⟩
  · exact Or.inl (by rw [endTripOn_veh_ne W v l w hw])

theorem Act.wrote {s : Stage} {W W' : CWorld} (a : Act s W W') (w : ℕ) : Wrote W w (W'.veh w) := by
  have setV : ∀ (X : CWorld) (v : ℕ) (f : CVeh → CVeh), (∀ V, (f V).log = V.log) →
      ((X.setV v f).veh w).log = (X.veh w).log := fun X v f h => by
    rw [setV_veh]; split
    · rename_i e; subst e; exact h _
    · rfl
  have fin : ∀ v l, Wrote W w ((W.endTripOn v l).veh w) := fun v l => by
    rcases Wrote.endTripOn W v l w with h | ⟨e, h, b⟩
    · exact Or.inl h
    · exact Or.inr ⟨e, h, Or.inl b⟩
  cases a with
  | genErr _ n e => exact Or.inl rfl
  | choose _ n v t o rng i hi hq hc => exact Or.inl (setV _ v _ (by intro V; rfl))
  | depart _ n v l t i hi hq hl hn hc hch =>
    obtain ⟨hvn, hst, hor⟩ := (i.gen n v).1 (by rw [hq]; simp)
    have hnot : ∀ m, v ∉ (W.link m).vehs := fun m hm => by
      have := (i.mem m v hm).2.1; rw [hst] at this; simp at this
    left
    simp only [CWorld.depart, setL_veh]
    rw [attach_veh _ _ _ _ (by simpa using hnot l)]
    simp only [setV_veh, setN_veh]
    split
    · rename_i e; subst e; simp
    · simp
  | signal _ n => exact Or.inl rfl
  | flow _ n => exact Or.inl rfl
  | collect _ n i hi => exact Or.inl (by rw [collect_veh])
  | draw _ n rng => exact Or.inl rfl
  | move _ n v a b t k ha hq hb hn hf hc hr ho hs hm =>
    have i := k.inv
    have hv0 : (W.moveVeh n v a b).veh = ((W.moved n v a b).endFront a).1.veh := rfl
    have hm' : ((W.moved n v a b).veh w).log = (W.veh w).log := by
      by_cases e : w = v
      · subst e
        obtain ⟨ln, ld, q, eq⟩ := moved_veh_self (n := n) (b := b) i hq
        rw [eq]
      · rw [moved_veh_other (n := n) (b := b) i hq w e]
    rw [hv0]
    rcases moved_endFront (n := n) (b := b) i hq with e' | ⟨h', t', e1, hne, hfh, e'⟩
    · exact Or.inl (by rw [e']; exact hm')
    · rw [e']
      rcases Wrote.endTripOn (W.moved n v a b) h' a w with h | ⟨e, h, b⟩
      · exact Or.inl (h.trans hm')
      · exact Or.inr ⟨e, by rw [h, hm'], Or.inl b⟩
  | endFront _ v l t i hq hna hni hf => exact fin v l
  | finish _ n => exact Or.inl rfl
  | follow _ v l i hv =>
    left
    unfold carFollow
    split
    · rfl
    · split <;> exact setV _ _ _ (by intro V; rfl)
  | log _ v l s i hv => exact Wrote.logData W v s w (Or.inr ⟨l, i, hv⟩)
  | advance _ v l i hv => exact Or.inl (setV _ _ _ (by intro V; rfl))
  | abort _ v l i hv hd ho ha => exact Or.inl (setV _ _ _ (by intro V; rfl))
  | flag _ v l i hv hc => exact Or.inl (setV _ _ _ (by intro V; rfl))
  | endRun _ v l t i hq hna hi hf => exact fin v l
  | reqErr _ l e => exact Or.inl rfl
  | req _ v l o rng i hv hd hc => exact Or.inl (by rw [setL_veh]; exact setV W v _ (by intro V; rfl))
  | waitLog _ n v i hv =>
    exact Wrote.logData W v none w (Or.inl (by rw [((i.gen n v).1 hv).2.1]; simp))

theorem Ev.wrote {W W' : CWorld} (e : Ev W W') (w : ℕ) : Wrote W w (W'.veh w) := by
  cases e with
  | act a => exact a.wrote w
  | clear => exact Or.inl rfl
  | update l => exact Or.inl rfl
  | home v r hv hs =>
    have h := Wrote.logData W v none w (Or.inl (by rw [hs]; simp))
    have e : ((W.vehUpdate v none).veh w).log = ((W.logData v none).veh w).log := by
      have h1 : ((W.logData v none).veh v).state = .home := by rw [core_state (core_logData W v none)]; exact hs
      unfold vehUpdate
      simp only [h1]
      split
      · rw [setN_veh, setV_veh]; split
        · rename_i e; subst e; rfl
        · rfl
      · rfl
    unfold Wrote
    rw [e]
    exact h
  | reconcile r => exact Or.inl rfl
  | route r =>
    obtain ⟨_, hv, _⟩ := routeStep_same W
    exact Or.inl (by rw [hv])
  | tick r => exact Or.inl rfl

/-- Calls write nothing. -/
theorem Call.wrote {W W' : CWorld} (c : Call W W') (w : ℕ) : (W'.veh w).log = (W.veh w).log ∨ (W'.veh w).log = [] := by
  cases c with
  | node r p ints off cap lanes rng => exact Or.inl rfl
  | link r src dst a hs hd hl hr => exact Or.inl rfl
  | vehicle r dep orig dest prefer ho hd =>
    show (if w = W.g.nVehs then newVeh dep orig dest prefer else W.veh w).log = _ ∨
      (if w = W.g.nVehs then newVeh dep orig dest prefer else W.veh w).log = _
    split
    · exact Or.inr rfl
    · exact Or.inl rfl
  | tmax r t => exact Or.inl rfl
  | init r => obtain ⟨hv, _⟩ := initAdj_same W; exact Or.inl (by rw [hv])
  | edit r e =>
    left
    have setV : ∀ (X : CWorld) (v : ℕ) (f : CVeh → CVeh), (∀ V, (f V).log = V.log) →
        ((X.setV v f).veh w).log = (X.veh w).log := fun X v f h => by
      rw [setV_veh]; split
      · rename_i e; subst e; exact h _
      · rfl
    cases e <;> simp only [CWorld.edit] <;> try rfl
    · unfold changeFreeFlow; split <;> rfl
    · unfold changeJam; split <;> rfl
    all_goals (refine setV _ _ _ ?_; intro V; rfl)

end UX.Cpp
