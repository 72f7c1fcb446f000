import Verif.Proofs.CppFollow

/-!
# Vehicles of the C++ engine with a specified route follow it: events, calls, runs without exceptions
-/

namespace UX.Cpp
open CWorld Relation Spec

theorem linkUpdate_arrived (W : CWorld) (l m : ℕ) : ((W.linkUpdate l).link m).arrived = (W.link m).arrived := by
  unfold CWorld.linkUpdate; rw [setL_link]; split
  · rename_i e; subst e; rfl
  · rfl

theorem Ev.fol {W W' : CWorld} (e : Ev W W') (w : ℕ) (h : Fol (Req W w) (W.veh w)) :
    Fol (Req W' w) (W'.veh w) := by
  cases e with
  | act a => exact a.fol w h
  | clear => exact h.mono (Req.of_eq (fun _ => rfl) (fun _ h => h)) rfl
  | update l => exact h.mono (Req.of_eq (linkUpdate_arrived W l) (fun _ h => h)) rfl
  | home v r hv hs =>
    have hc := core_logData W v none
    have hst : ((W.logData v none).veh v).state = .home := by rw [core_state hc]; exact hs
    have h1 : Fol (Req W w) ((W.logData v none).veh w) := h.logData none (fun h => h)
    have hr : Req (W.logData v none) w → Req W w :=
      Req.of_eq (fun m => core_arrived hc m) (fun n hn => by rw [core_incoming hc] at hn; exact hn)
    unfold CWorld.vehUpdate
    simp only [hst]
    split
    · have hr' : Req (((W.logData v none).setV v (fun V => { V with state := .wait })).setN
          ((W.logData v none).veh v).orig (fun N => { N with genQ := N.genQ ++ [v] })) w → Req W w :=
        fun q => hr (req_setN (W := (W.logData v none).setV v (fun V => { V with state := .wait }))
          (by intro N hN; exact hN) q)
      by_cases e : w = v
      · subst e
        rw [setN_veh, setV_veh, if_pos rfl]
        refine ⟨fun _ => h1.fresh (Or.inl hst), fun _ hh => ?_, fun a b => h1.asks a (hr' b), h1.len, h1.sub,
          fun _ hh => ?_⟩ <;> simp at hh
      · rw [setN_veh, setV_veh, if_neg e]
        exact h1.mono hr' rfl
    · exact h1.mono hr rfl
  | reconcile r =>
    refine h.mono (Req.of_eq (fun m => ?_) (fun n hn => ?_)) rfl
    · simp only [CWorld.reconcile]; split <;> rfl
    · simp only [CWorld.reconcile] at hn
      split at hn
      · exact hn
      · exact hn
  | route r =>
    obtain ⟨sp, hv, hn, _, hnl, ht, _, hno, hco⟩ := routeStep_same W
    refine h.mono (Req.of_eq (fun m => ?_) (fun n hn => by rw [hno] at hn; exact hn)) (by rw [hv])
    show (W.routeStep.link m).core.arrived = (W.link m).core.arrived
    rw [hco]
  | tick r => exact h.mono (Req.of_eq (fun _ => rfl) (fun _ h => h)) rfl

theorem Call.req {W W' : CWorld} (c : Call W W') (hi : ∀ n, (W'.node n).incoming = []) {w : ℕ}
    (h : Req W' w) : Req W w := by
  have key : ∀ m, w ∈ (W'.link m).arrived → Req W w := by
    intro m hm
    cases c with
    | node r p ints off cap lanes rng => exact Or.inl ⟨m, hm⟩
    | link r src dst a hs hd hl hr =>
      have hm' : w ∈ ((upd W.link W.g.nLinks (newLink W src dst a)) m).arrived := hm
      by_cases e : m = W.g.nLinks
      · rw [upd, if_pos e] at hm'
        simp [newLink] at hm'
      · rw [upd, if_neg e] at hm'
        exact Or.inl ⟨m, hm'⟩
    | vehicle r dep orig dest prefer ho hd => exact Or.inl ⟨m, hm⟩
    | tmax r t =>
      have : ((W.setTMax t).link m).arrived = (W.link m).arrived := by
        simp only [CWorld.setTMax]; split <;> rfl
      rw [this] at hm
      exact Or.inl ⟨m, hm⟩
    | init r => rw [(initAdj_same W).2.1] at hm; exact Or.inl ⟨m, hm⟩
    | edit r e =>
      have : ((W.edit e).link m).arrived = (W.link m).arrived := by
        cases e <;> first
          | rfl
          | (simp only [CWorld.edit]; rw [setL_link]; split
             · rename_i e; subst e; rfl
             · rfl)
          | (simp only [CWorld.edit, changeFreeFlow, changeJam]; split
             · rw [setL_link]; split
               · rename_i e; subst e; rfl
               · rfl
             · rfl)
      rw [this] at hm
      exact Or.inl ⟨m, hm⟩
  rcases h with ⟨m, hm⟩ | ⟨n, hn⟩
  · exact key m hm
  · rw [hi] at hn; simp at hn

theorem Rest.not_req {W : CWorld} (r : Rest W) {w : ℕ} (h : (W.veh w).state ≠ .run) : ¬ Req W w := by
  rintro (⟨m, hm⟩ | ⟨n, hn⟩)
  · exact h (r.inv.mem m w (r.inv.arr m w hm).1).2.1
  · rw [r.inc] at hn; simp at hn

theorem Fol.idle {r r' : Prop} {V V' : CVeh} (h : Fol r V) (hs : V.state = .home ∨ V.state = .wait)
    (hl : V'.life = V.life) (hr : ¬ r') : Fol r' V' := by
  have e1 : V'.state = V.state := (congrArg CVeh.state hl : V'.life.state = V.life.state)
  have e2 : V'.count = V.count := (congrArg CVeh.count hl : V'.life.count = V.life.count)
  have e3 : V'.log = V.log := (congrArg CVeh.log hl : V'.life.log = V.life.log)
  obtain ⟨h1, h2⟩ := h.fresh hs
  have hrun : V'.state ≠ .run := fun hc => by
    rw [e1] at hc; rw [hc] at hs; simp at hs
  have ht : V'.trace = [] := names_nil (fun o ho => by
    rw [e3] at ho
    obtain ⟨e, he, rfl⟩ := List.mem_map.1 ho
    exact h2 e he) _
  refine ⟨fun _ => ⟨e2.trans h1, by rw [e3]; exact h2⟩, fun _ hc => absurd hc hrun, fun _ hc => absurd hc hr,
    fun _ => by rw [e2, h1]; exact Nat.zero_le _, fun _ => by rw [ht]; exact List.nil_sublist _,
    fun _ hc => absurd hc hrun⟩

/-- Vehicles that were given their route before departure follow it. -/
theorem Spec.Planned.fol {v : ℕ} {W : CWorld} (h : Planned v W) : Fol (Req W v) (W.veh v) := by
  induction h with
  | empty =>
    exact ⟨fun _ => ⟨rfl, by simp [CWorld.empty]⟩, fun h => absurd rfl h, fun h => absurd rfl h,
      fun h => absurd rfl h, fun h => absurd rfl h, fun h => absurd rfl h⟩
  | @step W W' hp s hc ih =>
    have r := hp.toReach.rest
    have r' := (hp.toReach.step s).rest
    rcases s.split r with c | e
    · have hq : Req W' v → Req W v := c.req r'.inc
      rcases c.veh with ⟨_, hl⟩ | ⟨_, dep, orig, dest, prefer, hv⟩
      · have hl := hl v
        rcases hc with hc | hc
        · refine ih.mono hq ?_
          have e1 : (W'.veh v).state = (W.veh v).state := (congrArg CVeh.state hl : (W'.veh v).life.state = (W.veh v).life.state)
          have e2 : (W'.veh v).link = (W.veh v).link := (congrArg CVeh.link hl : (W'.veh v).life.link = (W.veh v).life.link)
          have e3 : (W'.veh v).next = (W.veh v).next := (congrArg CVeh.next hl : (W'.veh v).life.next = (W.veh v).life.next)
          have e4 : (W'.veh v).count = (W.veh v).count := (congrArg CVeh.count hl : (W'.veh v).life.count = (W.veh v).life.count)
          have e6 : (W'.veh v).log = (W.veh v).log := (congrArg CVeh.log hl : (W'.veh v).life.log = (W.veh v).life.log)
          unfold CVeh.pkey
          rw [e1, e2, e3, e4, hc, e6]
        · refine ih.idle hc hl (fun hr => r.not_req ?_ (hq hr))
          rcases hc with hc | hc <;> rw [hc] <;> simp
      · rw [hv]
        split
        · exact ⟨fun _ => ⟨rfl, by simp [newVeh]⟩, fun h => absurd rfl h, fun h => absurd rfl h,
            fun h => absurd rfl h, fun h => absurd rfl h, fun h => absurd rfl h⟩
        · exact ih.mono hq rfl
    · exact e.lift (P := fun W => Fol (Req W v) (W.veh v)) (fun _ _ e h => e.fol v h) ih

/-! ## Trips that end -/

/-- A trip that has ended has done so on a link of the specified route that leads to the destination. -/
def Done (W : CWorld) (v : ℕ) : Prop :=
  (W.veh v).state = .ended → (W.veh v).route ≠ [] → ∃ l k, (W.veh v).count = k + 1 ∧
    (W.veh v).route[k]? = some l ∧ l < W.g.nLinks ∧ (W.link l).dst = (W.veh v).dest

theorem Ev.done {W W' : CWorld} (e : Ev W W') {w : ℕ} (f : FlagOK W w) (h : Fol (Req W w) (W.veh w))
    (d : Done W w) : Done W' w := by
  intro hs hr
  have s := e.samePar
  have hn : W'.g.nLinks = W.g.nLinks := CGlob.fix_nLinks e.fix
  have e1 : (W'.veh w).route = (W.veh w).route :=
    (congrArg CVeh.route (s.veh w) : (W'.veh w).par.route = (W.veh w).par.route)
  rw [e1] at hr
  by_cases ho : (W.veh w).over
  · have hv := (e.veh w).final ho
    obtain ⟨l, k, p1, p2, p3, p4⟩ := d (by rw [← hv]; exact hs) hr
    exact ⟨l, k, by rw [hv]; exact p1, by rw [hv]; exact p2, by rw [hn]; exact p3,
      by rw [s.dst, s.dest]; exact p4⟩
  · have key : ∃ l, OnRun W w l ∧ (W.veh w).flagWait = true ∧ (W.veh w).flagAbort = false ∧
        (W'.veh w).count = (W.veh w).count := by
      have hne : (W.veh w).state ≠ .ended := fun hc => ho (Or.inl hc)
      have same : (W'.veh w).state ≠ (W.veh w).state := fun hc => hne (hc ▸ hs)
      cases e.veh w with
      | act c =>
        cases c with
        | same h => exact absurd (by rw [h]) same
        | ptr l q r hl h => exact absurd (by rw [h]) same
        | nextGen o hs h => exact absurd (by rw [h]) same
        | nextRun l o hl hd ho h => exact absurd (by rw [h]) same
        | depart l ln ld hs' hl hn ho h => rw [h] at hs; simp at hs
        | move a b ln ld q ha hb hf hn he h => exact absurd (by rw [h]) same
        | ends l q r hl hf h =>
          refine ⟨l, hl, hf, ?_, (congrArg CVeh.count h : (W'.veh w).noLog.count = _)⟩
          cases hb : (W.veh w).flagAbort with
          | false => rfl
          | true =>
            have := (congrArg CVeh.state h : (W'.veh w).noLog.state = _)
            rw [hb] at this
            have t : (W'.veh w).state = .abort := this
            rw [hs] at t; simp at t
        | log hs' h => exact absurd (noLog_state h) same
        | follow l p q hl h => exact absurd (by rw [h]) same
        | advance l hl h => exact absurd (by rw [h]; exact core_state (core_advance W w) w) same
        | abort l hl hd ho ha h => exact absurd (by rw [h]) same
        | flag l hl hc h => exact absurd (by rw [h]) same
      | stay hw hs' h => exact absurd (noLog_state h) same
      | wake hw hs' ht h =>
        have := (congrArg CVeh.state h : (W'.veh w).noLog.state = _)
        have t : (W'.veh w).state = .wait := this
        rw [hs] at t; simp at t
    obtain ⟨l, hl, hf, hb, hcount⟩ := key
    obtain ⟨_, l', q1, q2⟩ := f.wait hf
    rw [hl.link] at q1
    obtain rfl : l = l' := Option.some.inj q1
    have hd : (W.link l).dst = (W.veh w).dest := by
      rcases q2 with q2 | q2
      · exact q2
      · rw [hb] at q2; simp at q2
    obtain ⟨l', k, r1, r2, r3⟩ := h.on hr hl.state
    rw [hl.link] at r1
    obtain rfl : l = l' := Option.some.inj r1
    exact ⟨l, k, hcount.trans r2, by rw [e1]; exact r3, by rw [hn]; exact hl.lt, by rw [s.dst, s.dest]; exact hd⟩

theorem Call.dst {W W' : CWorld} (c : Call W W') : W.g.nLinks ≤ W'.g.nLinks ∧
    ∀ l, l < W.g.nLinks → (W'.link l).dst = (W.link l).dst := by
  cases c with
  | node r p ints off cap lanes rng => exact ⟨le_rfl, fun _ _ => rfl⟩
  | link r src dst a hs hd hl hr =>
    refine ⟨Nat.le_succ _, fun l hl => ?_⟩
    show ((upd W.link W.g.nLinks _) l).dst = _
    rw [upd, if_neg (by omega)]
  | vehicle r dep orig dest prefer ho hd => exact ⟨le_rfl, fun _ _ => rfl⟩
  | tmax r t =>
    refine ⟨le_rfl, fun l _ => ?_⟩
    simp only [CWorld.setTMax]; split <;> rfl
  | init r =>
    obtain ⟨a1, a2, a3, _⟩ := initAdj_same W
    exact ⟨(CGlob.fix_nLinks a3).ge, fun l _ => by rw [a2]⟩
  | edit r e => exact ⟨by rw [edit_g], fun l _ => congrArg (·.2.1) (edit_geo W e l)⟩

theorem Spec.Planned.done {v : ℕ} {W : CWorld} (h : Planned v W) : Done W v := by
  induction h with
  | empty => exact fun h => by simp [CWorld.empty] at h
  | @step W W' hp s hc ih =>
    rcases s.split hp.toReach.rest with c | e
    · rcases c.veh with ⟨_, hl⟩ | ⟨_, dep, orig, dest, prefer, hv⟩
      · have hl := hl v
        intro hs hr
        have e1 : (W'.veh v).state = (W.veh v).state := (congrArg CVeh.state hl : (W'.veh v).life.state = (W.veh v).life.state)
        have e2 : (W'.veh v).dest = (W.veh v).dest := (congrArg CVeh.dest hl : (W'.veh v).life.dest = (W.veh v).life.dest)
        have e4 : (W'.veh v).count = (W.veh v).count := (congrArg CVeh.count hl : (W'.veh v).life.count = (W.veh v).life.count)
        rw [e1] at hs
        rcases hc with hc | hc
        · rw [hc] at hr
          obtain ⟨l, k, p1, p2, p3, p4⟩ := ih hs hr
          exact ⟨l, k, e4.trans p1, by rw [hc]; exact p2, lt_of_lt_of_le p3 c.dst.1,
            by rw [c.dst.2 l p3, e2]; exact p4⟩
        · rw [hs] at hc; simp at hc
      · intro hs hr
        rw [hv] at hs hr ⊢
        split at hs
        · simp [newVeh] at hs
        · rename_i hne
          rw [if_neg hne] at hr ⊢
          obtain ⟨l, k, p1, p2, p3, p4⟩ := ih hs hr
          exact ⟨l, k, p1, p2, lt_of_lt_of_le p3 c.dst.1, by rw [c.dst.2 l p3]; exact p4⟩
    · exact (e.lift (P := fun W => (∀ w, FlagOK W w) ∧ Fol (Req W v) (W.veh v) ∧ Done W v)
        (fun _ _ e h => ⟨fun w => FlagOK.ev h.1 e w, e.fol v h.2.1, e.done (h.1 v) h.2.1 h.2.2⟩)
        ⟨hp.toReach.flags, hp.fol, ih⟩).2.2

end UX.Cpp
