import Verif.Proofs.CppChoice

/-!
# Runs of the C++ engine without exceptions
-/

namespace UX.Cpp
open CWorld Relation Spec

/-- Every vehicle is free to choose or on its way to its destination on a specified route. -/
def Calm (W : CWorld) : Prop :=
  ∀ v, v < W.g.nVehs → Unstuck W v ∨ (GoodPlan W v ∧ Fol (Req W v) (W.veh v))

theorem GoodPlan.ne {W : CWorld} {v : ℕ} (h : GoodPlan W v) : (W.veh v).route ≠ [] := by
  obtain ⟨_, l, hl, _⟩ := h
  intro hc
  rw [hc] at hl; simp at hl

theorem Spec.Unplanned.unstuck {W : CWorld} {v : ℕ} (h : Unplanned W v) : Unstuck W v := by
  refine ⟨h.1, fun c hc => ?_⟩
  by_cases hp : ∃ d, d < W.g.nLinks ∧ (W.link d).src = (W.link c).src ∧ d ∈ (W.veh v).prefer
  · obtain ⟨d, d1, d2, d3⟩ := hp
    exact ⟨d, d1, d2, by rw [h.2]; simp, fun _ => d3⟩
  · exact ⟨c, hc, rfl, by rw [h.2]; simp, fun h => absurd h hp⟩

theorem chooseNext_free {W : CWorld} (i : Inv W none none) {v : ℕ} (h : Unstuck W v) (n : ℕ) (rng : ℕ → ℕ) (e : CErr) :
    W.chooseNext v (W.node n).outLinks rng ≠ .error e := by
  by_cases hl : (W.node n).outLinks = []
  · rw [hl, chooseNext_nil]; simp
  · obtain ⟨c, hc⟩ := List.exists_mem_of_ne_nil _ hl
    obtain ⟨c1, c2⟩ := (i.outL n c).1 hc
    obtain ⟨d, hd⟩ := h.2 c c1
    rw [c2, ← open_iff i] at hd
    rw [chooseNext_draws rng h.1 (List.ne_nil_of_mem hd)]
    simp

theorem chooseNext_planned {W : CWorld} {v f : ℕ} {ls : List ℕ} (hr : (W.veh v).route ≠ [])
    (h : (W.veh v).route[(W.veh v).count]? = some f) (hf : f ∈ ls) (rng : ℕ → ℕ) (e : CErr) :
    W.chooseNext v ls rng ≠ .error e := by
  unfold CWorld.chooseNext
  split
  · simp
  · rw [h]
    simp only
    rw [if_pos hf]
    simp

theorem Calm.gen {W : CWorld} (c : Calm W) (i : Inv W none none) {n v : ℕ} {t : List ℕ}
    (hq : (W.node n).genQ = v :: t) (e : CErr) :
    W.chooseNext v (W.node n).outLinks (W.node n).rng ≠ .error e := by
  obtain ⟨hvn, hst, hor⟩ := (i.gen n v).1 (by rw [hq]; simp)
  rcases c v hvn with h | ⟨hg, h⟩
  · exact chooseNext_free i h _ _ e
  · have hr := GoodPlan.ne hg
    obtain ⟨⟨g1, g2, g3⟩, _⟩ := hg
    have hc := (h.fresh (Or.inr hst)).1
    cases hrt : (W.veh v).route with
    | nil => exact absurd hrt hr
    | cons f r =>
      refine chooseNext_planned hr (f := f) (by rw [hc, hrt]; rfl) ?_ _ e
      exact (i.outL n f).2 ⟨g3 f (by rw [hrt]; simp), (g1 f (by rw [hrt]; rfl)).trans hor⟩

theorem Calm.req {W : CWorld} (c : Calm W) (i : Inv W none none) {l v : ℕ} (hv : v ∈ (W.link l).vehs)
    (hd : (W.link l).dst ≠ (W.veh v).dest) (e : CErr) :
    W.chooseNext v (W.node (W.link l).dst).outLinks (W.link l).rng ≠ .error e := by
  obtain ⟨hl, hst, hln, hvn, _⟩ := i.mem l v hv
  rcases c v hvn with h | ⟨hg, h⟩
  · exact chooseNext_free i h _ _ e
  · have hr := GoodPlan.ne hg
    obtain ⟨⟨g1, g2, g3⟩, m, hm, hdm⟩ := hg
    obtain ⟨l', k, h1, h2, h3⟩ := h.on hr hst
    rw [hl] at h1
    obtain rfl : l = l' := Option.some.inj h1
    cases hf : (W.veh v).route[(W.veh v).count]? with
    | none =>
      exfalso
      have hlen : (W.veh v).route.length ≤ k + 1 := by
        rw [h2] at hf; exact List.getElem?_eq_none_iff.1 hf
      have hk := lt_of_getElem? h3
      rw [List.getLast?_eq_getElem?, show (W.veh v).route.length - 1 = k by omega, h3] at hm
      obtain rfl : l = m := Option.some.inj hm
      exact hd hdm
    | some f =>
      refine chooseNext_planned hr hf ?_ _ e
      rw [h2] at hf
      have hk1 := lt_of_getElem? hf
      have hk := lt_of_getElem? h3
      have hc := List.isChain_iff_getElem.1 g2 k hk1
      rw [List.getElem?_eq_getElem hk1] at hf
      rw [List.getElem?_eq_getElem hk] at h3
      rw [Option.some.inj h3, Option.some.inj hf] at hc
      exact (i.outL _ f).2 ⟨g3 f (by rw [← Option.some.inj hf]; exact List.getElem_mem hk1), hc.symm⟩

/-! ## Exceptions -/

/-- No exception is pending. -/
def NoExc (W : CWorld) : Prop := (∀ n, (W.node n).exc = none) ∧ ∀ l, (W.link l).exc = none

theorem NoExc.of_eq {W W' : CWorld} (h : NoExc W) (h1 : ∀ n, (W'.node n).exc = (W.node n).exc)
    (h2 : ∀ l, (W'.link l).exc = (W.link l).exc) : NoExc W' :=
  ⟨fun n => (h1 n).trans (h.1 n), fun l => (h2 l).trans (h.2 l)⟩

theorem setN_exc (W : CWorld) (n : ℕ) (f : CNode → CNode) (hf : ∀ N, (f N).exc = N.exc) (m : ℕ) :
    ((W.setN n f).node m).exc = (W.node m).exc := by
  rw [setN_node]; split
  · rename_i e; subst e; exact hf _
  · rfl

theorem setL_exc (W : CWorld) (l : ℕ) (f : CLink → CLink) (hf : ∀ L, (f L).exc = L.exc) (m : ℕ) :
    ((W.setL l f).link m).exc = (W.link m).exc := by
  rw [setL_link]; split
  · rename_i e; subst e; exact hf _
  · rfl

theorem detach_node' (X : CWorld) (u : ℕ) : (X.detach u).node = X.node := by
  unfold CWorld.detach; split <;> rfl

theorem logData_nexc (W : CWorld) (v : ℕ) (s : Option ℕ) (n : ℕ) :
    ((W.logData v s).node n).exc = (W.node n).exc := by
  have h1 : ((W.logStats v).node n).exc = (W.node n).exc := by
    unfold logStats; split
    · rfl
    · exact setN_exc _ _ _ (by intro N; rfl) _
    · rfl
  unfold CWorld.logData logPush
  split
  · exact h1
  · exact h1

theorem endTripOn_nexc (W : CWorld) (v l n : ℕ) : ((W.endTripOn v l).node n).exc = (W.node n).exc := by
  unfold CWorld.endTripOn
  extract_lets W1 W2 W3
  rw [logData_nexc]
  show (W2.node n).exc = _
  rw [show W2.node = W1.node from detach_node' W1 v]
  rfl

theorem routeStep_noExc {W : CWorld} (h : NoExc W) : NoExc W.routeStep := by
  have hup : ∀ l, (W.updateAdj.link l).exc = (W.link l).exc := by
    intro l
    simp only [CWorld.updateAdj]
    split
    · rfl
    · beta_reduce; split <;> rfl
  refine h.of_eq (fun n => ?_) (fun l => ?_)
  · rw [(routeStep_same W).2.2.2.2.2.2.2.1]
  · unfold CWorld.routeStep
    split
    · split
      · exact hup l
      · rfl
    · split
      · exact hup l
      · rfl

theorem NoExc.endTripOn {W : CWorld} (h : NoExc W) (v l : ℕ) : NoExc (W.endTripOn v l) :=
  h.of_eq (fun n => endTripOn_nexc W v l n) (fun m => endTripOn_exc W v l m)

theorem moved_noExc {W : CWorld} (h : NoExc W) (n v a b : ℕ) : NoExc (W.moved n v a b) := by
  refine h.of_eq (fun m => ?_) (fun m => ?_)
  · simp only [CWorld.moved, place, setV_node, attach_node, CWorld.leave, detach_node']
    split
    · exact setN_exc _ _ _ (by intro N; rfl) _
    · rfl
  · rw [moved_link, leave_link, setL_link]
    split
    · rename_i e; subst e
      exact setL_exc _ _ _ (by intro L; rfl) _
    · exact setL_exc _ _ _ (by intro L; rfl) _

theorem Act.noExc {s : Stage} {W W' : CWorld} (a : Act s W W') (c : Calm W) (h : NoExc W) : NoExc W' := by
  cases a with
  | genErr _ n e v t i hq hc => exact absurd hc (c.gen i hq e)
  | choose _ n v t o rng i hi hq hc =>
    exact h.of_eq (fun m => setN_exc W n (fun N => { N with rng := rng }) (by intro N; rfl) m) (fun _ => rfl)
  | depart _ n v l t i hi hq hl hn hc hch =>
    refine h.of_eq (fun m => ?_) (fun m => ?_)
    · simp only [CWorld.depart, setL_node, attach_node, setV_node]
      exact setN_exc _ _ _ (by intro N; rfl) _
    · simp only [CWorld.depart, setL_link, attach_link, setV_link, setN_link]
      split
      · rename_i e; subst e; rfl
      · rfl
  | signal _ n =>
    refine h.of_eq (fun m => ?_) (fun _ => rfl)
    unfold CWorld.signalUpdate
    exact setN_exc W n _ (by intro N; rfl) m
  | flow _ n =>
    refine h.of_eq (fun m => ?_) (fun _ => rfl)
    unfold CWorld.flowUpdate
    exact setN_exc W n _ (by intro N; rfl) m
  | collect _ n i hi =>
    refine h.of_eq (fun m => ?_) (fun m => ?_)
    · rw [collect_node]
    · rw [collect_link]; split <;> rfl
  | draw _ n rng => exact h.of_eq (fun m => setN_exc W n _ (by intro N; rfl) m) (fun _ => rfl)
  | move _ n v a b t k ha hq hb hn hf hc hr ho hs hm =>
    have i := k.inv
    have h1 : NoExc ((W.moved n v a b).endFront a).1 := by
      rcases moved_endFront (n := n) (b := b) i hq with e | ⟨h', t', e1, hne, hfh, e⟩
      · rw [e]; exact moved_noExc h n v a b
      · rw [e]; exact (moved_noExc h n v a b).endTripOn _ _
    have h2 : NoExc (((W.moved n v a b).endFront a).1.setL b (fun L => { L with vehs := L.vehs ++ [v] })) :=
      h1.of_eq (fun _ => rfl) (fun m => setL_exc _ _ _ (by intro N; rfl) m)
    exact h2.of_eq (W' := (((W.moved n v a b).endFront a).1.setL b
      (fun L => { L with vehs := L.vehs ++ [v] })).setN n
        (fun N => { N with incoming := N.incoming.filter (· ≠ v) }))
      (fun m => setN_exc _ _ _ (by intro N; rfl) m) (fun _ => rfl)
  | endFront _ v l t i hq hna hni hf => exact h.endTripOn v l
  | finish _ n => exact h.of_eq (fun m => setN_exc W n _ (by intro N; rfl) m) (fun _ => rfl)
  | follow _ v l i hv =>
    have hc : (W.carFollow v).link = W.link ∧ (W.carFollow v).node = W.node := by
      unfold carFollow
      split
      · exact ⟨rfl, rfl⟩
      · split <;> exact ⟨rfl, rfl⟩
    exact h.of_eq (fun m => by rw [hc.2]) (fun m => by rw [hc.1])
  | log _ v l s i hv => exact h.of_eq (fun m => logData_nexc W v s m) (fun m => logData_exc W v s m)
  | advance _ v l i hv => exact h
  | abort _ v l i hv hd ho ha => exact h
  | flag _ v l i hv hc => exact h
  | endRun _ v l t i hq hna hi hf => exact h.endTripOn v l
  | reqErr _ l e v i hv hd hc => exact absurd hc (c.req i hv hd e)
  | req _ v l o rng i hv hd hc =>
    exact h.of_eq (fun _ => rfl) (fun m => setL_exc _ _ _ (by intro L; rfl) m)
  | waitLog _ n v i hv => exact h.of_eq (fun m => logData_nexc W v none m) (fun m => logData_exc W v none m)

theorem Calm.par {W W' : CWorld} (c : Calm W) (s : SamePar W W') (hf : W'.g.fix = W.g.fix)
    (h : ∀ v, Fol (Req W v) (W.veh v) → Fol (Req W' v) (W'.veh v)) : Calm W' := by
  intro v hv
  have hn : W'.g.nLinks = W.g.nLinks := CGlob.fix_nLinks hf
  rw [CGlob.fix_nVehs hf] at hv
  have e1 : (W'.veh v).route = (W.veh v).route :=
    (congrArg CVeh.route (s.veh v) : (W'.veh v).par.route = (W.veh v).par.route)
  have e2 : (W'.veh v).avoid = (W.veh v).avoid :=
    (congrArg CVeh.avoid (s.veh v) : (W'.veh v).par.avoid = (W.veh v).par.avoid)
  have e4 : (W'.veh v).prefer = (W.veh v).prefer :=
    (congrArg CVeh.prefer (s.veh v) : (W'.veh v).par.prefer = (W.veh v).par.prefer)
  have e3 : (W'.veh v).dest = (W.veh v).dest :=
    (congrArg CVeh.dest (s.veh v) : (W'.veh v).par.dest = (W.veh v).par.dest)
  rcases c v hv with ⟨h1, h2⟩ | ⟨⟨⟨g1, g2, g3⟩, l, g4, g5⟩, h2⟩
  · refine Or.inl ⟨e1.trans h1, fun c hc => ?_⟩
    rw [hn] at hc
    obtain ⟨d, hd⟩ := h2 c hc
    refine ⟨d, ?_⟩
    unfold Open at hd ⊢
    simp only [s.src, e2, e4, hn]
    exact hd
  · refine Or.inr ⟨⟨⟨fun l hl => ?_, ?_, fun l hl => ?_⟩, l, by rw [e1]; exact g4, by rw [s.dst, e3]; exact g5⟩, h v h2⟩
    · rw [e1] at hl; rw [s.src, s.orig]; exact g1 l hl
    · rw [e1]
      refine g2.imp (fun a b hab => ?_)
      rw [s.dst, s.src]; exact hab
    · rw [e1] at hl; rw [hn]; exact g3 l hl

theorem vehUpdate_home_exc {W : CWorld} {v : ℕ} (hs : (W.veh v).state = .home) (h : NoExc W) :
    NoExc (W.vehUpdate v none) := by
  have hc := core_logData W v none
  have hst : ((W.logData v none).veh v).state = .home := by rw [core_state hc]; exact hs
  have h1 : NoExc (W.logData v none) := h.of_eq (fun m => logData_nexc W v none m) (fun m => logData_exc W v none m)
  unfold CWorld.vehUpdate
  simp only [hst]
  split
  · exact h1.of_eq (fun m => setN_exc _ _ _ (by intro N; rfl) m) (fun _ => rfl)
  · exact h1

theorem Ev.noExc {W W' : CWorld} (e : Ev W W') (h : Calm W ∧ NoExc W) : Calm W' ∧ NoExc W' := by
  obtain ⟨c, h⟩ := h
  refine ⟨c.par e.samePar e.fix (fun v hv => e.fol v hv), ?_⟩
  cases e with
  | act a => exact a.noExc c h
  | clear => exact ⟨fun _ => rfl, fun _ => rfl⟩
  | update l =>
    refine h.of_eq (fun _ => rfl) (fun m => ?_)
    unfold CWorld.linkUpdate; exact setL_exc _ _ _ (by intro L; rfl) m
  | home v r hv hs => exact vehUpdate_home_exc hs h
  | reconcile r =>
    refine h.of_eq (fun m => ?_) (fun m => ?_)
    · simp only [CWorld.reconcile]; split <;> rfl
    · simp only [CWorld.reconcile]; split <;> rfl
  | route r => exact routeStep_noExc h
  | tick r => exact h

theorem NoExc.first {W : CWorld} (h : NoExc W) : W.firstExc = none := by
  unfold CWorld.firstExc
  rw [List.findSome?_eq_none_iff.2 (fun n _ => h.1 n)]
  simp only
  exact List.findSome?_eq_none_iff.2 (fun l _ => h.2 l)

theorem step_calm {W : CWorld} (r : Rest W) {σ : Sched} (hσ : σ.run.Nodup) (home : List ℕ) (c : Calm W) :
    (CWorld.stepWith σ home W).2 = none := by
  have r0 : Rest W.clearExc := r.congr (core_clearExc W).symm
  have c0 : Calm W.clearExc ∧ NoExc W.clearExc :=
    ⟨c.par (Ev.clear W).samePar (Ev.clear W).fix (fun v hv => (Ev.clear W).fol v hv), fun _ => rfl, fun _ => rfl⟩
  have h1 := (region_evs r0 σ hσ).lift (P := fun X => Calm X ∧ NoExc X) (fun _ _ e h => e.noExc h) c0
  unfold CWorld.stepWith
  simp only
  rw [h1.2.first]

theorem loop_calm {sched : ℕ → CWorld → Sched} (hs : ∀ t W, Rest W → (sched t W).run.Nodup)
    {b : ℕ → List ℕ} (hb : ∀ t, (b t).Nodup) (hd : ∀ s t v, s ≠ t → v ∈ b s → v ∉ b t) (k : ℕ)
    {W : CWorld} (r : Rest W)
    (hh : ∀ t, W.g.timestep ≤ t → ∀ v ∈ b t, v < W.g.nVehs ∧ (W.veh v).state = .home) (c : Calm W) :
    (loopFrom sched b k W).2 = none := by
  induction k generalizing W with
  | zero => rfl
  | succ k ih =>
    obtain ⟨r1, k1⟩ := r.stepWith (sched W.g.timestep W) (hs _ _ r) (b W.g.timestep) (hb _) (hh _ le_rfl)
    have e1 := stepWith_evs r (sched W.g.timestep W) (hs _ _ r) (b W.g.timestep) (hb _) (hh _ le_rfl)
    have c1 := step_calm r (hs W.g.timestep W r) (b W.g.timestep) c
    rw [loopFrom]
    cases he : CWorld.stepWith (sched W.g.timestep W) (b W.g.timestep) W with
    | mk W1 e =>
      rw [he] at r1 k1 e1 c1
      simp only at r1 k1 e1 c1
      subst c1
      simp only
      have cW1 : Calm W1 := e1.lift (P := Calm)
        (fun _ _ e c => c.par e.samePar e.fix (fun v hv => e.fol v hv)) c
      have ct := (Ev.tick W1 r1)
      rw [k1.timestep] at ct
      refine ih (W := { W1 with g := { W1.g with timestep := W.g.timestep + 1 } })
        (r1.setG _ rfl rfl rfl rfl rfl) (fun t ht v hv => ?_)
        (cW1.par ct.samePar ct.fix (fun v hv => ct.fol v hv))
      have ht' : W.g.timestep + 1 ≤ t := ht
      obtain ⟨p, q⟩ := hh t (by omega) v hv
      have hv' := k1.home v (fun h => hd _ _ v (by omega) h hv) q
      exact ⟨by show v < W1.g.nVehs; rw [k1.nVehs]; exact p, by show (W1.veh v).state = _; rw [hv']; exact q⟩

theorem main_calm {W : CWorld} (r : Rest W) {sched : ℕ → CWorld → Sched}
    (hs : ∀ t W, Rest W → (sched t W).run.Nodup) (endTs : ℕ) (c : Calm W) : (mainLoop sched W endTs).2 = none := by
  refine loop_calm hs (fun t => bucket_nodup W _ t) ?_ _ r ?_ c
  · intro s t v hne h h'
    exact hne ((mem_bucket.1 h).2.2.symm.trans (mem_bucket.1 h').2.2)
  · intro t _ v hv
    exact ⟨(mem_bucket.1 hv).1, (mem_bucket.1 hv).2.1⟩

end UX.Cpp
