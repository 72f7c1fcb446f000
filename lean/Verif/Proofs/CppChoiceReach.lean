import Verif.Proofs.CppChoice
import Verif.Proofs.CppRuns

/-!
# The links that vehicles of the C++ engine without a specified route enter: events and calls
-/

namespace UX.Cpp
open CWorld Relation Spec

theorem Ev.walk0 {W W' : CWorld} (e : Ev W W') (w : ℕ)
    (h : Walked (fun l => (W.link l).src) (Fair W w) (Req W w) (W.veh w)) :
    Walked (fun l => (W.link l).src) (Fair W w) (Req W' w) (W'.veh w) := by
  cases e with
  | act a => exact a.walk w h
  | clear => exact h.mono (Req.of_eq (fun _ => rfl) (fun _ h => h)) rfl
  | update l => exact h.mono (Req.of_eq (linkUpdate_arrived W l) (fun _ h => h)) rfl
  | home v r hv hs =>
    have hc := core_logData W v none
    have hst : ((W.logData v none).veh v).state = .home := by rw [core_state hc]; exact hs
    have h1 : Walked (fun l => (W.link l).src) (Fair W w) (Req W w) ((W.logData v none).veh w) := h.logData none (fun h => h)
    have hr : Req (W.logData v none) w → Req W w :=
      Req.of_eq (fun m => core_arrived hc m) (fun n hn => by rw [core_incoming hc] at hn; exact hn)
    unfold CWorld.vehUpdate
    simp only [hst]
    split
    · have hr' : Req (((W.logData v none).setV v (fun V => { V with state := .wait })).setN
          ((W.logData v none).veh v).orig (fun N => { N with genQ := N.genQ ++ [v] })) w → Req W w :=
        fun q => hr (req_setN (W := (W.logData v none).setV v (fun V => { V with state := .wait }))
          (by intro N hN; exact hN) q)
      by_cases e : w = v
      · subst e
        rw [setN_veh, setV_veh, if_pos rfl]
        obtain ⟨P, h1⟩ := h1
        refine ⟨P, fun _ => h1.fresh (Or.inl hst), h1.len, h1.seen, fun hh => ?_, h1.sub, fun hh => ?_, h1.fair,
          fun a b => h1.asks a (hr' b)⟩ <;> simp at hh
      · rw [setN_veh, setV_veh, if_neg e]
        exact h1.mono hr' rfl
    · exact h1.mono hr rfl
  | reconcile r =>
    refine h.mono (Req.of_eq (fun m => ?_) (fun n hn => ?_)) rfl
    · simp only [CWorld.reconcile]; split <;> rfl
    · simp only [CWorld.reconcile] at hn
      split at hn
      · exact hn
      · exact hn
  | route r =>
    obtain ⟨sp, hv, hn, _, hnl, ht, _, hno, hco⟩ := routeStep_same W
    refine h.mono (Req.of_eq (fun m => ?_) (fun n hn => by rw [hno] at hn; exact hn)) (by rw [hv])
    show (W.routeStep.link m).core.arrived = (W.link m).core.arrived
    rw [hco]
  | tick r => exact h.mono (Req.of_eq (fun _ => rfl) (fun _ h => h)) rfl

theorem Fair.congr {W W' : CWorld} {v : ℕ} (hl : ∀ l, (W'.link l).src = (W.link l).src ∧ (W'.link l).dst = (W.link l).dst)
    (hp : (W'.veh v).prefer = (W.veh v).prefer) (ha : (W'.veh v).avoid = (W.veh v).avoid)
    (hn : W'.g.nLinks = W.g.nLinks) (hc : W'.g.noCyclic = W.g.noCyclic) : Fair W' v = Fair W v := by
  have h1 : (fun l => (W'.link l).src) = fun l => (W.link l).src := funext fun l => (hl l).1
  funext P b
  unfold Fair Open Seen
  simp only [(hl _).1, (hl _).2, hp, ha, hn, hc]

theorem CGlob.fix_noCyclic {g g' : CGlob} (h : g.fix = g'.fix) : g.noCyclic = g'.noCyclic :=
  (congrArg CGlob.noCyclic h : g.fix.noCyclic = g'.fix.noCyclic)

theorem Ev.walk {W W' : CWorld} (e : Ev W W') (w : ℕ)
    (h : Walked (fun l => (W.link l).src) (Fair W w) (Req W w) (W.veh w)) :
    Walked (fun l => (W'.link l).src) (Fair W' w) (Req W' w) (W'.veh w) := by
  have s := e.samePar
  have h1 := e.walk0 w h
  have e1 : (fun l => (W'.link l).src) = fun l => (W.link l).src := funext fun l => s.src l
  rw [e1, Fair.congr (fun l => ⟨s.src l, s.dst l⟩)
    (congrArg CVeh.prefer (s.veh w) : (W'.veh w).par.prefer = (W.veh w).par.prefer)
    (congrArg CVeh.avoid (s.veh w) : (W'.veh w).par.avoid = (W.veh w).par.avoid)
    (CGlob.fix_nLinks e.fix) (CGlob.fix_noCyclic e.fix)]
  exact h1

theorem Call.noCyclic {W W' : CWorld} (c : Call W W') : W'.g.noCyclic = W.g.noCyclic := by
  cases c with
  | node r p ints off cap lanes rng => rfl
  | link r src dst a hs hd hl hr => rfl
  | vehicle r dep orig dest prefer ho hd => rfl
  | tmax r t => rfl
  | init r => exact CGlob.fix_noCyclic (initAdj_same W).2.2.1
  | edit r e => rw [edit_g]

theorem Call.ends {W W' : CWorld} (c : Call W W') (hn : W'.g.nLinks = W.g.nLinks) (l : ℕ) :
    (W'.link l).src = (W.link l).src ∧ (W'.link l).dst = (W.link l).dst := by
  cases c with
  | node r p ints off cap lanes rng => exact ⟨rfl, rfl⟩
  | link r src dst a hs hd hl hr =>
    have : W.g.nLinks + 1 = W.g.nLinks := hn
    omega
  | vehicle r dep orig dest prefer ho hd => exact ⟨rfl, rfl⟩
  | tmax r t => simp only [CWorld.setTMax]; split <;> exact ⟨rfl, rfl⟩
  | init r => rw [(initAdj_same W).2.1]; exact ⟨rfl, rfl⟩
  | edit r e => exact ⟨congrArg (·.1) (edit_geo W e l), congrArg (·.2.1) (edit_geo W e l)⟩

theorem Walked.start {S : ℕ → ℕ} {F : List ℕ → ℕ → Prop} {r : Prop} {V : CVeh}
    (hs : V.state = .home ∨ V.state = .wait) (hc : V.count = 0) (hv : ∀ n, V.visited n = false)
    (hl : ∀ e ∈ V.log, e.link = none) (hr : ¬ r) : Walked S F r V := by
  have hrun : V.state ≠ .run := fun h => by rw [h] at hs; simp at hs
  have ht : V.trace = [] := names_nil (fun o ho => by
    obtain ⟨e, he, rfl⟩ := List.mem_map.1 ho
    exact hl e he) _
  refine ⟨[], fun _ => ⟨rfl, hl⟩, hc.symm, fun n => by simp [hv n], fun h => absurd h hrun, ?_,
    fun h => absurd h hrun, fun _ k b h => by simp at h, fun _ h => absurd h hr⟩
  rw [ht]

/-- The walk of a vehicle that was only steered before its departure. -/
theorem Spec.Steered.walk {v : ℕ} {W : CWorld} (h : Steered v W) :
    Walked (fun l => (W.link l).src) (Fair W v) (Req W v) (W.veh v) := by
  induction h with
  | empty =>
    refine Walked.start (Or.inl rfl) rfl (fun _ => rfl) (by simp [CWorld.empty]) ?_
    rintro (⟨m, hm⟩ | ⟨m, hm⟩) <;> simp [CWorld.empty] at hm
  | @step W W' hp s hc ih =>
    have r := hp.toReach.rest
    have r' := (hp.toReach.step s).rest
    rcases s.split r with c | e
    · have hq : Req W' v → Req W v := c.req r'.inc
      rcases c.veh with ⟨_, hl⟩ | ⟨hnv, dep, orig, dest, prefer, hv⟩
      · have hl := hl v
        have e1 : (W'.veh v).state = (W.veh v).state := (congrArg CVeh.state hl : (W'.veh v).life.state = (W.veh v).life.state)
        have e2 : (W'.veh v).link = (W.veh v).link := (congrArg CVeh.link hl : (W'.veh v).life.link = (W.veh v).life.link)
        have e3 : (W'.veh v).next = (W.veh v).next := (congrArg CVeh.next hl : (W'.veh v).life.next = (W.veh v).life.next)
        have e4 : (W'.veh v).count = (W.veh v).count := (congrArg CVeh.count hl : (W'.veh v).life.count = (W.veh v).life.count)
        have e6 : (W'.veh v).log = (W.veh v).log := (congrArg CVeh.log hl : (W'.veh v).life.log = (W.veh v).life.log)
        have e7 : (W'.veh v).visited = (W.veh v).visited := (congrArg CVeh.visited hl : (W'.veh v).life.visited = (W.veh v).life.visited)
        rcases hc with ⟨h1, h2, h3, h4⟩ | hc
        · have a1 : (fun l => (W'.link l).src) = fun l => (W.link l).src := funext fun l => (c.ends h4 l).1
          rw [a1, Fair.congr (c.ends h4) h1 h2 h4 c.noCyclic]
          refine ih.mono hq ?_
          unfold CVeh.wkey
          rw [e1, e2, e3, e4, h3, e6, e7]
        · obtain ⟨P, ih⟩ := ih
          obtain ⟨rfl, hlog⟩ := ih.fresh hc
          refine Walked.start (by rw [e1]; exact hc) (by rw [e4, ← ih.len]; rfl) (fun n => ?_)
            (by rw [e6]; exact hlog) (fun hr => r.not_req ?_ (hq hr))
          · rw [e7]
            have := ih.seen n
            simpa using this
          · rcases hc with hc | hc <;> rw [hc] <;> simp
      · by_cases hvn : v = W.g.nVehs
        · rw [hv, if_pos hvn]
          refine Walked.start (Or.inl rfl) rfl (fun _ => rfl) (by simp [newVeh]) (fun hr => r'.not_req ?_ hr)
          rw [hv, if_pos hvn]; simp [newVeh]
        · have hl : (W'.veh v) = W.veh v := by rw [hv, if_neg hvn]
          have h4 : W'.g.nLinks = W.g.nLinks := by
            cases c with
            | node r p ints off cap lanes rng => rfl
            | link r src dst a hs hd hl hr =>
              have : W.g.nVehs = W.g.nVehs + 1 := hnv
              omega
            | vehicle r dep orig dest prefer ho hd => rfl
            | tmax r t => rfl
            | init r => exact CGlob.fix_nLinks (initAdj_same W).2.2.1
            | edit r e => rw [edit_g]
          have a1 : (fun l => (W'.link l).src) = fun l => (W.link l).src := funext fun l => (c.ends h4 l).1
          rw [a1, Fair.congr (c.ends h4) (by rw [hl]) (by rw [hl]) h4 c.noCyclic]
          exact ih.mono hq (by rw [hl])
    · exact e.lift (P := fun W => Walked (fun l => (W.link l).src) (Fair W v) (Req W v) (W.veh v))
        (fun _ _ e h => e.walk v h) ih

end UX.Cpp
