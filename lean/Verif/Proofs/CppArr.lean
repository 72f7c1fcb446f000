import Verif.Proofs.CppFollowReach

/-!
# Logs of trips that have ended lead to the destination
-/

namespace UX.Cpp
open CWorld Relation Spec

/-- The last link in the log of a vehicle. -/
def CVeh.seen (V : CVeh) : Option ℕ := lastLink none (V.log.map CLog.link)

/-- The log grows by at most one entry, without a link or on the present one. -/
def LogCh (V V' : CVeh) : Prop :=
  V'.log = V.log ∨ ∃ e : CLog, V'.log = V.log ++ [e] ∧ (e.link = none ∨ V.state = .run ∧ e.link = V.link)

theorem Mute.logCh {V V' : CVeh} (h : Mute V.log V'.log) : LogCh V V' := by
  rcases h with h | ⟨e, he, h⟩
  · exact Or.inl h
  · exact Or.inr ⟨e, h, Or.inl he⟩

theorem pkey_log {V V' : CVeh} (h : V'.pkey = V.pkey) : V'.log = V.log := congrArg (fun p => p.2.2.2.2.2) h

theorem LogCh.logData (W : CWorld) (v : ℕ) (s : Option ℕ) (w : ℕ) : LogCh (W.veh w) ((W.logData v s).veh w) := by
  rcases logData_cases W v s with e | ⟨e, he, e2⟩
  · exact Or.inl (by rw [e])
  · rw [e2]
    split
    · rename_i hw; subst hw
      refine Or.inr ⟨e, rfl, ?_⟩
      by_cases hs : (W.veh w).state = .run
      · rw [if_pos hs] at he; exact Or.inr ⟨hs, he⟩
      · rw [if_neg hs] at he; exact Or.inl he
    · exact Or.inl rfl

theorem Act.logs {s : Stage} {W W' : CWorld} (a : Act s W W') (w : ℕ) : LogCh (W.veh w) (W'.veh w) := by
  have setV : ∀ (X : CWorld) (v : ℕ) (f : CVeh → CVeh), (∀ V, (f V).log = V.log) →
      ((X.setV v f).veh w).log = (X.veh w).log := fun X v f h => by
    rw [setV_veh]; split
    · rename_i e; subst e; exact h _
    · rfl
  cases a with
  | genErr _ n e => exact Or.inl rfl
  | choose _ n v t o rng i hi hq hc => exact Or.inl (setV _ v _ (by intro V; rfl))
  | depart _ n v l t i hi hq hl hn hc hch =>
    obtain ⟨hvn, hst, hor⟩ := (i.gen n v).1 (by rw [hq]; simp)
    have hnot : ∀ m, v ∉ (W.link m).vehs := fun m hm => by
      have := (i.mem m v hm).2.1; rw [hst] at this; simp at this
    left
    simp only [CWorld.depart, setL_veh]
    rw [attach_veh _ _ _ _ (by simpa using hnot l)]
    simp only [setV_veh, setN_veh]
    split
    · rename_i e; subst e; simp
    · simp
  | signal _ n => exact Or.inl rfl
  | flow _ n => exact Or.inl rfl
  | collect _ n i hi => exact Or.inl (by rw [collect_veh])
  | draw _ n rng => exact Or.inl rfl
  | move _ n v a b t k ha hq hb hn hf hc hr ho hs hm =>
    have i := k.inv
    have hv0 : (W.moveVeh n v a b).veh = ((W.moved n v a b).endFront a).1.veh := rfl
    have hm' : ((W.moved n v a b).veh w).log = (W.veh w).log := by
      by_cases e : w = v
      · subst e
        obtain ⟨ln, ld, q, eq⟩ := moved_veh_self (n := n) (b := b) i hq
        rw [eq]
      · rw [moved_veh_other (n := n) (b := b) i hq w e]
    rw [hv0]
    rcases moved_endFront (n := n) (b := b) i hq with e' | ⟨h', t', e1, hne, hfh, e'⟩
    · exact Or.inl (by rw [e']; exact hm')
    · rw [e']
      by_cases e2 : w = h'
      · subst e2
        have := (endTripOn_quiet (W.moved n v a b) w a)
        rw [hm'] at this
        exact Mute.logCh this
      · exact Or.inl ((pkey_log (endTripOn_pkey_ne _ e2)).trans hm')
  | endFront _ v l t i hq hna hni hf =>
    by_cases e : w = v
    · subst e; exact Mute.logCh (endTripOn_quiet W w l)
    · exact Or.inl (pkey_log (endTripOn_pkey_ne W e))
  | finish _ n => exact Or.inl rfl
  | follow _ v l i hv =>
    left
    unfold carFollow
    split
    · rfl
    · split <;> exact setV _ _ _ (by intro V; rfl)
  | log _ v l s i hv => exact LogCh.logData W v s w
  | advance _ v l i hv => exact Or.inl (setV _ _ _ (by intro V; rfl))
  | abort _ v l i hv hd ho ha => exact Or.inl (setV _ _ _ (by intro V; rfl))
  | flag _ v l i hv hc => exact Or.inl (setV _ _ _ (by intro V; rfl))
  | endRun _ v l t i hq hna hi hf =>
    by_cases e : w = v
    · subst e; exact Mute.logCh (endTripOn_quiet W w l)
    · exact Or.inl (pkey_log (endTripOn_pkey_ne W e))
  | reqErr _ l e => exact Or.inl rfl
  | req _ v l o rng i hv hd hc => exact Or.inl (by rw [setL_veh]; exact setV W v _ (by intro V; rfl))
  | waitLog _ n v i hv => exact LogCh.logData W v none w

theorem Ev.logs {W W' : CWorld} (e : Ev W W') (w : ℕ) : LogCh (W.veh w) (W'.veh w) := by
  cases e with
  | act a => exact a.logs w
  | clear => exact Or.inl rfl
  | update l => exact Or.inl rfl
  | home v r hv hs =>
    have h := LogCh.logData W v none w
    have e : ((W.vehUpdate v none).veh w).log = ((W.logData v none).veh w).log := by
      have h1 : ((W.logData v none).veh v).state = .home := by rw [core_state (core_logData W v none)]; exact hs
      unfold vehUpdate
      simp only [h1]
      split
      · rw [setN_veh, setV_veh]; split
        · rename_i e; subst e; rfl
        · rfl
      · rfl
    unfold LogCh
    rw [e]
    exact h
  | reconcile r => exact Or.inl rfl
  | route r =>
    obtain ⟨_, hv, _⟩ := routeStep_same W
    exact Or.inl (by rw [hv])
  | tick r => exact Or.inl rfl

theorem LogCh.seen {V V' : CVeh} (h : LogCh V V') : V'.seen = V.seen ∨ V.state = .run ∧ V'.seen = V.link := by
  unfold CVeh.seen
  rcases h with h | ⟨e, h, he | ⟨hs, he⟩⟩
  · rw [h]; exact Or.inl rfl
  · left; rw [h, List.map_append, List.map_cons, List.map_nil, lastLink_snoc, he]
  · rw [h, List.map_append, List.map_cons, List.map_nil, lastLink_snoc, he]
    cases hl : V.link with
    | none => exact Or.inl rfl
    | some l => exact Or.inr ⟨hs, rfl⟩

/-- The log of a vehicle at its destination ends with the link that leads there. -/
structure Arr (W : CWorld) (v : ℕ) : Prop where
  wait : (W.veh v).flagWait = true → (W.veh v).seen = (W.veh v).link
  fin : (W.veh v).state = .ended → ∃ l, (W.veh v).seen = some l ∧ l < W.g.nLinks ∧ (W.link l).dst = (W.veh v).dest

theorem Ev.arr {W W' : CWorld} (e : Ev W W') (hm : W.g.logMode = true) {w : ℕ} (f : FlagOK W w) (a : Arr W w) :
    Arr W' w := by
  have s := e.samePar
  have hn : W'.g.nLinks = W.g.nLinks := CGlob.fix_nLinks e.fix
  have lg := (e.logs w).seen
  have keep : (W'.veh w).flagWait = (W.veh w).flagWait → (W'.veh w).link = (W.veh w).link →
      (W'.veh w).flagWait = true → (W'.veh w).seen = (W'.veh w).link := fun h1 h2 h3 => by
    rw [h2]
    rcases lg with h | h
    · rw [h]; exact a.wait (h1 ▸ h3)
    · exact h.2
  refine ⟨?_, fun hs => ?_⟩
  · cases e.veh w with
    | act c =>
      cases c with
      | same h => exact keep (by rw [h]) (by rw [h])
      | ptr l q r hl h => exact keep (by rw [h]) (by rw [h])
      | nextGen o hs h => exact keep (by rw [h]) (by rw [h])
      | nextRun l o hl hd ho h => exact keep (by rw [h]) (by rw [h])
      | depart l ln ld hs hl hn ho h =>
        intro hf
        rw [h] at hf
        have := (f.wait hf).1
        rw [hs] at this; simp at this
      | move a b ln ld q ha hb hf hn he h => intro hc; rw [h] at hc; simp only [hf] at hc; simp at hc
      | ends l q r hl hf h =>
        intro hc
        have : (W'.veh w).flagWait = false := (congrArg CVeh.flagWait h : (W'.veh w).noLog.flagWait = _)
        rw [this] at hc; simp at hc
      | log hs' h =>
        exact keep (congrArg CVeh.flagWait h : (W'.veh w).noLog.flagWait = (W.veh w).noLog.flagWait)
          (congrArg CVeh.link h : (W'.veh w).noLog.link = (W.veh w).noLog.link)
      | follow l p q hl h => exact keep (by rw [h]) (by rw [h])
      | advance l hl h =>
        have e1 : ((W.advance w).veh w).flagWait = (W.veh w).flagWait := by
          unfold CWorld.advance; rw [setV_veh, if_pos rfl]
        have e2 : ((W.advance w).veh w).link = (W.veh w).link := by
          unfold CWorld.advance; rw [setV_veh, if_pos rfl]
        exact keep (by rw [h, e1]) (by rw [h, e2])
      | abort l hl hd ho ha h => exact keep (by rw [h]) (by rw [h])
      | flag l hl hc h hlg =>
        intro _
        obtain ⟨d, hd, hdl⟩ := hlg hm
        rw [h]
        show (W.veh w).seen = (W.veh w).link
        rw [hl.link]
        exact lastLink_last none (by rw [List.getLast?_map, hd]; simp [hdl])
    | stay hw hs' h =>
      exact keep (congrArg CVeh.flagWait h : (W'.veh w).noLog.flagWait = (W.veh w).noLog.flagWait)
        (congrArg CVeh.link h : (W'.veh w).noLog.link = (W.veh w).noLog.link)
    | wake hw hs' ht h =>
      intro hf
      have : (W'.veh w).flagWait = (W.veh w).flagWait := (congrArg CVeh.flagWait h : (W'.veh w).noLog.flagWait = _)
      rw [this] at hf
      have := (f.wait hf).1
      rw [hs'] at this; simp at this
  · by_cases ho : (W.veh w).over
    · have hv := (e.veh w).final ho
      obtain ⟨l, p1, p2, p3⟩ := a.fin (by rw [← hv]; exact hs)
      exact ⟨l, by rw [hv]; exact p1, by rw [hn]; exact p2, by rw [s.dst, s.dest]; exact p3⟩
    · have key : ∃ l, OnRun W w l ∧ (W.veh w).flagWait = true ∧ (W.veh w).flagAbort = false := by
        have hne : (W.veh w).state ≠ .ended := fun hc => ho (Or.inl hc)
        have same : (W'.veh w).state ≠ (W.veh w).state := fun hc => hne (hc ▸ hs)
        cases e.veh w with
        | act c =>
          cases c with
          | same h => exact absurd (by rw [h]) same
          | ptr l q r hl h => exact absurd (by rw [h]) same
          | nextGen o hs h => exact absurd (by rw [h]) same
          | nextRun l o hl hd ho h => exact absurd (by rw [h]) same
          | depart l ln ld hs' hl hn ho h => rw [h] at hs; simp at hs
          | move a b ln ld q ha hb hf hn he h => exact absurd (by rw [h]) same
          | ends l q r hl hf h =>
            refine ⟨l, hl, hf, ?_⟩
            cases hb : (W.veh w).flagAbort with
            | false => rfl
            | true =>
              have := (congrArg CVeh.state h : (W'.veh w).noLog.state = _)
              rw [hb] at this
              have t : (W'.veh w).state = .abort := this
              rw [hs] at t; simp at t
          | log hs' h => exact absurd (noLog_state h) same
          | follow l p q hl h => exact absurd (by rw [h]) same
          | advance l hl h => exact absurd (by rw [h]; exact core_state (core_advance W w) w) same
          | abort l hl hd ho ha h => exact absurd (by rw [h]) same
          | flag l hl hc h => exact absurd (by rw [h]) same
        | stay hw hs' h => exact absurd (noLog_state h) same
        | wake hw hs' ht h =>
          have := (congrArg CVeh.state h : (W'.veh w).noLog.state = _)
          have t : (W'.veh w).state = .wait := this
          rw [hs] at t; simp at t
      obtain ⟨l, hl, hf, hb⟩ := key
      obtain ⟨_, l', q1, q2⟩ := f.wait hf
      rw [hl.link] at q1
      obtain rfl : l = l' := Option.some.inj q1
      have hd : (W.link l).dst = (W.veh w).dest := by
        rcases q2 with q2 | q2
        · exact q2
        · rw [hb] at q2; simp at q2
      refine ⟨l, ?_, by rw [hn]; exact hl.lt, by rw [s.dst, s.dest]; exact hd⟩
      rcases lg with h | h
      · rw [h, a.wait hf]; exact hl.link
      · rw [h.2]; exact hl.link

theorem Call.logMode {W W' : CWorld} (c : Call W W') : W'.g.logMode = W.g.logMode := by
  cases c with
  | node r p ints off cap lanes rng => rfl
  | link r src dst a hs hd hl hr => rfl
  | vehicle r dep orig dest prefer ho hd => rfl
  | tmax r t => rfl
  | init r =>
    obtain ⟨a1, a2, a3, _⟩ := initAdj_same W
    exact CGlob.fix_logMode a3
  | edit r e => rw [edit_g]

theorem Call.arr {W W' : CWorld} (c : Call W W') {w : ℕ} (a : Arr W w) : Arr W' w := by
  have key : (W'.veh w).life = (W.veh w).life → Arr W' w := fun hl => by
    have e1 : (W'.veh w).state = (W.veh w).state := (congrArg CVeh.state hl : (W'.veh w).life.state = (W.veh w).life.state)
    have e2 : (W'.veh w).dest = (W.veh w).dest := (congrArg CVeh.dest hl : (W'.veh w).life.dest = (W.veh w).life.dest)
    have e3 : (W'.veh w).log = (W.veh w).log := (congrArg CVeh.log hl : (W'.veh w).life.log = (W.veh w).life.log)
    have e4 : (W'.veh w).link = (W.veh w).link := (congrArg CVeh.link hl : (W'.veh w).life.link = (W.veh w).life.link)
    have e5 : (W'.veh w).flagWait = (W.veh w).flagWait :=
      (congrArg CVeh.flagWait hl : (W'.veh w).life.flagWait = (W.veh w).life.flagWait)
    have e6 : (W'.veh w).seen = (W.veh w).seen := by unfold CVeh.seen; rw [e3]
    refine ⟨by rw [e4, e5, e6]; exact a.wait, fun hs => ?_⟩
    obtain ⟨l, p1, p2, p3⟩ := a.fin (e1 ▸ hs)
    exact ⟨l, e6.trans p1, lt_of_lt_of_le p2 c.dst.1, by rw [c.dst.2 l p2, e2]; exact p3⟩
  rcases c.veh with ⟨_, hl⟩ | ⟨_, dep, orig, dest, prefer, hv⟩
  · exact key (hl w)
  · by_cases e : w = W.g.nVehs
    · have h := hv w
      rw [if_pos e] at h
      refine ⟨fun hf => ?_, fun hs => ?_⟩
      · rw [h] at hf; simp [newVeh] at hf
      · rw [h] at hs; simp [newVeh] at hs
    · exact key (by rw [hv w, if_neg e])

theorem CReach.arr {W : CWorld} (h : CReach W) (hm : W.g.logMode = true) (v : ℕ) : Arr W v := by
  induction h with
  | empty => exact ⟨fun h => by simp [CWorld.empty] at h, fun h => by simp [CWorld.empty] at h⟩
  | @step W W' hr s ih =>
    rcases s.split hr.rest with c | e
    · exact c.arr (ih (c.logMode ▸ hm))
    · have hm0 : W.g.logMode = true := (CGlob.fix_logMode e.fix).symm.trans hm
      exact (e.lift (P := fun V => (∀ w, FlagOK V w) ∧ V.g.logMode = true ∧ Arr V v)
        (fun _ _ e h => ⟨fun w => FlagOK.ev h.1 e w, (CGlob.fix_logMode e.fix).trans h.2.1, e.arr h.2.1 (h.1 v) h.2.2⟩)
        ⟨hr.flags, hm0, ih hm0⟩).2.2

/-- The route of a trip that has ended leads to the destination. -/
theorem CReach.trace_last {W : CWorld} (h : CReach W) (hm : W.g.logMode = true) {v : ℕ}
    (hs : (W.veh v).state = .ended) : ∃ l, (W.veh v).trace.getLast? = some l ∧ l < W.g.nLinks ∧
      (W.link l).dst = (W.veh v).dest := by
  obtain ⟨l, p1, p2, p3⟩ := (h.arr hm v).fin hs
  refine ⟨l, ?_, p2, p3⟩
  have : ∀ (xs : List (Option ℕ)) (p : Option ℕ) (l : ℕ), lastLink p xs = some l → (names p xs).getLast? = some l ∨
      names p xs = [] ∧ p = some l := by
    intro xs
    induction xs with
    | nil => intro p l h; exact Or.inr ⟨rfl, h⟩
    | cons o r ih =>
      intro p l h
      cases o with
      | none => exact ih p l h
      | some m =>
        simp only [lastLink] at h
        simp only [names]
        split
        · rename_i e; subst e; exact ih _ _ h
        · left
          rcases ih _ _ h with h | ⟨h1, h2⟩
          · rw [List.getLast?_cons, h]; rfl
          · rw [h1, Option.some.inj h2]; rfl
  rcases this _ none l p1 with h | ⟨_, h⟩
  · exact h
  · simp at h

end UX.Cpp
