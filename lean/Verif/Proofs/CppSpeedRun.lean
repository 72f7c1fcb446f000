import Verif.Proofs.CppSpeed
import Verif.Proofs.CppPaceRun
import Mathlib.Algebra.Order.BigOperators.Group.List

/-!
# Speeds in the C++ engine: time steps and runs
-/

namespace UX.Cpp
open CWorld Relation Spec

/-! ## Recorded travel times -/

/-- The recorded travel times are the same. -/
def SameTt (W W' : CWorld) : Prop := ∀ l, (W'.link l).ttInst = (W.link l).ttInst

theorem SameTt.trans {W W' W'' : CWorld} (h : SameTt W W') (h' : SameTt W' W'') : SameTt W W'' :=
  fun l => (h' l).trans (h l)

theorem sameTt_setL (W : CWorld) (m : ℕ) {f : CLink → CLink} (hf : ∀ L, (f L).ttInst = L.ttInst) :
    SameTt W (W.setL m f) := fun l => by
  rw [setL_link]; split
  · rename_i e; subst e; exact hf _
  · rfl

theorem sameTt_logData (W : CWorld) (v : ℕ) (s : Option ℕ) : SameTt W (W.logData v s) := by
  have h1 : SameTt W (W.logStats v) := by
    unfold logStats; split
    · exact sameTt_setL W _ (by intro L; rfl)
    · exact fun _ => rfl
    · exact fun _ => rfl
  unfold logData logPush
  split
  · exact h1
  · exact h1

theorem sameTt_detach (W : CWorld) (v : ℕ) : SameTt W (W.detach v) := by
  unfold detach; split <;> exact fun _ => rfl

theorem sameTt_attach (W : CWorld) (v l : ℕ) : SameTt W (W.attach v l) := by
  unfold attach; extract_lets q lane W1
  split
  · split <;> exact fun _ => rfl
  · exact fun _ => rfl

theorem sameTt_endTripOn (W : CWorld) (v l : ℕ) : SameTt W (W.endTripOn v l) := by
  unfold endTripOn; extract_lets W1 W2 W3
  have h1 : SameTt W W1 := sameTt_setL W l (by intro L; rfl)
  have h2 : SameTt W1 W2 := sameTt_detach W1 v
  have h3 : SameTt W2 W3 := fun _ => rfl
  exact ((h1.trans h2).trans h3).trans (sameTt_logData W3 v none)

theorem sameTt_endFront (W : CWorld) (l : ℕ) : SameTt W (W.endFront l).1 := by
  unfold endFront
  split
  · exact fun _ => rfl
  · split
    · unfold endTrip; split
      · exact fun _ => rfl
      · exact sameTt_endTripOn _ _ _
    · exact fun _ => rfl

theorem sameTt_leave (W : CWorld) (n v a b : ℕ) : SameTt W (W.leave n v a b) := by
  unfold leave; extract_lets W1 W2 W3
  have h1 : SameTt W W1 := sameTt_setL W a (by intro L; rfl)
  have h2 : SameTt W1 W2 := sameTt_setL W1 b (by intro L; rfl)
  have h3 : SameTt W2 W3 := by
    show SameTt W2 (if _ then _ else _)
    split <;> exact fun _ => rfl
  exact ((h1.trans h2).trans h3).trans (sameTt_detach W3 v)

theorem Act.sameTt {s : Stage} {W W' : CWorld} (a : Act s W W') : SameTt W W' := by
  cases a with
  | depart _ n v l t i hi hq hl hn hc hch =>
    unfold CWorld.depart; extract_lets W1 W2
    have h1 : SameTt W W2 := fun _ => rfl
    exact (h1.trans (sameTt_attach W2 v l)).trans (sameTt_setL _ l (by intro L; rfl))
  | collect _ n i hi =>
    have : ∀ (xs : List ℕ) (X : CWorld),
        SameTt X (xs.foldl (fun W a => W.setL a (fun L => { L with arrived := [] })) X) := by
      intro xs
      induction xs with
      | nil => exact fun X l => rfl
      | cons a t ih => exact fun X => (sameTt_setL X a (by intro L; rfl)).trans (ih _)
    exact this _ W
  | move _ n v a b t k ha hq hb hn hf hc hr ho hs hm =>
    unfold CWorld.moveVeh; extract_lets W2 W3 W4
    have h1 : SameTt W W2 := (sameTt_leave W n v a b).trans (sameTt_attach _ v b)
    have h2 : SameTt W2 W3 := fun _ => rfl
    have h3 : SameTt W3 W4 := sameTt_endFront W3 a
    refine ((h1.trans h2).trans h3).trans (SameTt.trans (sameTt_setL W4 b (f := fun L => { L with vehs := L.vehs ++ [v] })
      (by intro L; rfl)) (fun _ => rfl))
  | endFront _ v l t i hq hna hni hf => exact sameTt_endTripOn W v l
  | follow _ v l i hv =>
    unfold carFollow; split
    · exact fun _ => rfl
    · split <;> exact fun _ => rfl
  | log _ v l s i hv => exact sameTt_logData W v s
  | endRun _ v l t i hq hna hi hf => exact sameTt_endTripOn W v l
  | reqErr _ l e => exact sameTt_setL W l (by intro L; rfl)
  | req _ v l o rng i hv hd hc hx hlg => exact sameTt_setL (W.setV v _) l (by intro L; rfl)
  | waitLog _ n v i hv => exact sameTt_logData W v none
  | _ => exact fun _ => rfl

theorem Acts.sameTt {s : Stage} {W W' : CWorld} (a : Acts s W W') : SameTt W W' := by
  induction a with
  | refl => exact fun _ => rfl
  | tail _ c ih => exact ih.trans c.sameTt

theorem sameTt_home (xs : List ℕ) (hx : xs.Nodup) (W : CWorld) (h : ∀ v ∈ xs, (W.veh v).state = .home) :
    SameTt W (xs.foldl (fun W v => W.vehUpdate v none) W) := by
  induction xs generalizing W with
  | nil => exact fun _ => rfl
  | cons v t ih =>
    obtain ⟨hv, ht⟩ := List.nodup_cons.1 hx
    have hcr := core_logData W v none
    have hst : ((W.logData v none).veh v).state = .home := by rw [core_state hcr]; exact h v (by simp)
    have key : SameTt W (W.vehUpdate v none) ∧ ∀ w, w ≠ v → (W.vehUpdate v none).veh w = W.veh w := by
      unfold CWorld.vehUpdate
      simp only [hst]
      split
      · refine ⟨sameTt_logData W v none, fun w hw => ?_⟩
        rw [setN_veh, setV_veh, if_neg hw, logData_veh_ne W v w none hw]
      · exact ⟨sameTt_logData W v none, fun w hw => logData_veh_ne W v w none hw⟩
    refine key.1.trans (ih ht _ (fun w hw => ?_))
    rw [key.2 w (fun e => hv (e ▸ hw))]
    exact h w (by simp [hw])

theorem sameTt_endStep (W : CWorld) : SameTt W W.reconcile.routeStep := by
  have h1 : SameTt W W.reconcile := fun l => by
    simp only [CWorld.reconcile]; split <;> rfl
  have hu : SameTt W.reconcile W.reconcile.updateAdj := fun l => by
    simp only [CWorld.updateAdj]; split
    · rfl
    · beta_reduce; split <;> rfl
  refine h1.trans ?_
  generalize W.reconcile = X at *
  unfold CWorld.routeStep
  split
  · split
    · exact hu
    · exact fun _ => rfl
  · split
    · exact hu
    · exact fun _ => rfl

theorem foldl_sum (q : ℕ → ℚ) (xs : List ℕ) (s : ℚ) :
    (xs.map q).foldl (fun s q => id (s + q)) s = s + (xs.map q).sum := by
  induction xs generalizing s with
  | nil => simp
  | cons a t ih => simp only [List.map_cons, List.foldl_cons, List.sum_cons, id] at ih ⊢; rw [ih]; ring

/-- The recorded travel time is at least that of the free flow. -/
theorem newTt_ge {W : CWorld} (p : Roads W) {l : ℕ} (hl : l < W.g.nLinks)
    (hv : ∀ v ∈ (W.link l).vehs, (W.veh v).v ≤ (W.link l).vmax)
    (ht : ∀ t, t < W.g.timestep → (W.link l).len / (W.link l).vmax ≤ (W.link l).ttInst t) :
    (W.link l).len / (W.link l).vmax ≤ W.newTt l := by
  obtain ⟨hu, hlen⟩ := p.link l hl
  have hlen0 : 0 ≤ (W.link l).len := by linarith
  unfold newTt
  simp only [p.fl]
  split
  · rename_i h0
    have : 0 < W.g.timestep := Nat.pos_of_ne_zero (fun h => h0 (by rw [h]; simp))
    rw [if_pos this]
    exact ht _ (by omega)
  · split
    · rename_i hne
      rw [foldl_sum, zero_add]
      simp only [id]
      have hn : (0 : ℚ) < (W.link l).vehs.length := by
        exact_mod_cast List.length_pos_of_ne_nil hne
      have hs : ((W.link l).vehs.map (fun v => (W.veh v).v)).sum ≤ (W.link l).vehs.length * (W.link l).vmax := by
        have := List.sum_le_card_nsmul ((W.link l).vehs.map (fun v => (W.veh v).v)) (W.link l).vmax (by simpa using hv)
        simpa using this
      split
      · rename_i hpos
        refine div_le_div_of_nonneg_left hlen0 hpos ?_
        rw [div_le_iff₀ hn]; linarith
      · exact div_le_div_of_nonneg_left hlen0 (by linarith) (by linarith)
    · exact le_rfl

/-! ## Time steps and runs -/

/-- What holds of the vehicle `w` at the beginning of a time step. -/
structure Tame (W : CWorld) (w : ℕ) : Prop where
  roads : Roads W
  dt : 0 < W.g.deltaT
  lt : w < W.g.nVehs
  spd : Spd W (Req W w) True (W.veh w)

theorem Tame.le {W : CWorld} {w l : ℕ} (h : Tame W w) (hs : (W.veh w).state = .run) (hl : (W.veh w).link = some l) :
    0 ≤ (W.veh w).v ∧ (W.veh w).v ≤ (W.link l).vmax := by
  obtain ⟨_, _, _, o4, o5, _⟩ := h.spd.on hs l hl
  refine ⟨o4, le_of_mul_le_mul_right ?_ h.dt⟩
  have := h.spd.slow (Or.inl trivial) hs l hl
  linarith

theorem clearExc_same (W : CWorld) : W.clearExc.veh = W.veh ∧ W.clearExc.g = W.g ∧ SameTt W W.clearExc ∧
    (∀ l, (W.clearExc.link l).vehs = (W.link l).vehs) :=
  ⟨rfl, rfl, fun _ => rfl, fun _ => rfl⟩

/-- The parameters after a completed time step. -/
theorem step_par {W W' : CWorld} {σ : Sched} {home : List ℕ} (r : Rest W) (hσ : σ.Valid W) (hnd : home.Nodup)
    (hh : ∀ v ∈ home, v < W.g.nVehs ∧ (W.veh v).state = .home) (he : CWorld.stepWith σ home W = (W', none)) :
    SamePar W W' ∧ W'.g.fl = W.g.fl ∧ W'.g.deltaT = W.g.deltaT ∧ W'.g.nLinks = W.g.nLinks ∧ W'.g.nVehs = W.g.nVehs ∧
      W'.g.logMode = W.g.logMode := by
  have hrun : σ.run.Nodup := hσ.2.2.2.1.nodup_iff.2 List.nodup_range
  obtain ⟨k2, _⟩ := r.stepWith2 σ hrun home hnd hh
  obtain ⟨_, k3⟩ := r.stepWith σ hrun home hnd hh
  rw [he] at k2 k3
  exact ⟨k3.par, CGlob.fix_fl k2.fix, CGlob.fix_deltaT k2.fix, k3.nLinks, k3.nVehs, CGlob.fix_logMode k2.fix⟩

theorem step_tame {W W' : CWorld} {σ : Sched} {home : List ℕ} (r : Rest W) (hσ : σ.Valid W) (hnd : home.Nodup)
    (hh : ∀ v ∈ home, v < W.g.nVehs ∧ (W.veh v).state = .home) (he : CWorld.stepWith σ home W = (W', none)) {w : ℕ}
    (h : Tame W w) : Tame { W' with g := { W'.g with timestep := W.g.timestep + 1 } } w := by
  obtain ⟨sp, e1, e2, e3, e4, e5⟩ := step_par r hσ hnd hh he
  obtain ⟨W1, W2, W3, W4, W5, W6, st, hW'⟩ := step_split r hσ he
  have k0 := Keep.clearExc W
  obtain ⟨k6, h6⟩ := st.spd (h.roads.keep k0) h.dt (w := w) h.lt
    ((h.spd.over (Req.of_eq (fun _ => rfl) (fun _ h => h)) id rfl).keep k0.samePar rfl rfl rfl)
  have kk := k0.trans k6
  have hx : ∀ v ∈ home, v < W6.g.nVehs ∧ (W6.veh v).state = .home := fun v hv => by
    rw [kk.g, kk.home v (hh v hv).2]; exact hh v hv
  have h7 := homePass_spd home hnd st.r6 hx h6
  have hfix7 : ∀ (xs : List ℕ) (W : CWorld), xs.Nodup → Rest W →
      (∀ v ∈ xs, v < W.g.nVehs ∧ (W.veh v).state = .home) →
      SamePar W (xs.foldl (fun W v => W.vehUpdate v none) W) ∧ (xs.foldl (fun W v => W.vehUpdate v none) W).g = W.g := by
    intro xs
    induction xs with
    | nil => exact fun W _ _ _ => ⟨SamePar.refl W, rfl⟩
    | cons v t ih =>
      intro W hnd r hx
      obtain ⟨hv, ht⟩ := List.nodup_cons.1 hnd
      obtain ⟨p, q, g, e⟩ := r.homeVeh (hx v (by simp)).1 (hx v (by simp)).2
      obtain ⟨a, b⟩ := ih (W.vehUpdate v none) ht p (fun w hw => by
        rw [g, e w (fun h => hv (h ▸ hw))]; exact hx w (by simp [hw]))
      exact ⟨q.trans a, b.trans g⟩
  obtain ⟨sp7, g7⟩ := hfix7 home W6 hnd st.r6 hx
  generalize home.foldl (fun (W : CWorld) v => W.vehUpdate v none) W6 = W7 at *
  have hr8 : Req W7.reconcile.routeStep w → Req W7 w := endStep_req
  have hv8 := endStep_veh W7
  rw [← hW'] at hr8 hv8
  have sp8 : SamePar W7 W' := by
    have a := kk.samePar.trans sp7
    exact ⟨fun m => (sp.node m).trans (a.node m).symm, fun m => (sp.link m).trans (a.link m).symm,
      fun m => (sp.veh m).trans (a.veh m).symm⟩
  have h8 : Spd W' (Req W' w) True (W'.veh w) := by
    rw [hv8]
    exact (h7.over hr8 id rfl).keep sp8 (by rw [g7, kk.g]; exact e2) (by rw [g7, kk.g]; exact e3)
      (by rw [g7, kk.g]; exact e5)
  refine ⟨⟨e1.trans h.roads.fl, ?_, fun l hl => ?_⟩, ?_, ?_, ?_⟩
  · show 0 ≤ W'.g.deltaT
    rw [e2]; exact h.roads.dt
  · have hl' : l < W'.g.nLinks := hl
    rw [e3] at hl'
    show 0 < (W'.link l).vmax ∧ 1 / 1000000000 ≤ (W'.link l).len
    rw [sp.len, sp.vmax]
    exact h.roads.link l hl'
  · show 0 < W'.g.deltaT
    rw [e2]; exact h.dt
  · show w < W'.g.nVehs
    rw [e4]; exact h.lt
  · exact Spd.keep (W := W') (W' := { W' with g := { W'.g with timestep := W.g.timestep + 1 } })
      ⟨fun _ => rfl, fun _ => rfl, fun _ => rfl⟩ rfl rfl rfl
      (h8.over (Req.of_eq (W' := { W' with g := { W'.g with timestep := W.g.timestep + 1 } })
        (fun _ => rfl) (fun _ h => h)) id rfl)

/-- All vehicles and the recorded travel times. -/
def AllTame (W : CWorld) : Prop := Roads W ∧ 0 < W.g.deltaT ∧ (∀ w, w < W.g.nVehs → Tame W w) ∧
  ∀ l, l < W.g.nLinks → ∀ t, t < W.g.timestep → (W.link l).len / (W.link l).vmax ≤ (W.link l).ttInst t

theorem AllTame.slow {W : CWorld} (h : AllTame W) (i : Inv W none none) : Slow W := by
  obtain ⟨_, _, hc, ht⟩ := h
  exact ⟨fun l _ v hv => (hc v (i.mem l v hv).2.2.2.1).le (i.mem l v hv).2.1 (i.mem l v hv).1, ht⟩

theorem step_all {W W' : CWorld} {σ : Sched} {home : List ℕ} (r : Rest W) (hσ : σ.Valid W) (hnd : home.Nodup)
    (hh : ∀ v ∈ home, v < W.g.nVehs ∧ (W.veh v).state = .home) (he : CWorld.stepWith σ home W = (W', none))
    (h : AllTame W) : AllTame { W' with g := { W'.g with timestep := W.g.timestep + 1 } } := by
  have hsl := AllTame.slow h r.inv
  obtain ⟨p, hdt, hc, ht⟩ := h
  obtain ⟨sp, e1, e2, e3, e4, e5⟩ := step_par r hσ hnd hh he
  have e2' : 0 < W'.g.deltaT := by rw [e2]; exact hdt
  have p' : Roads { W' with g := { W'.g with timestep := W.g.timestep + 1 } } := by
    refine ⟨e1.trans p.fl, e2'.le, fun l hl => ?_⟩
    have hl' : l < W'.g.nLinks := hl
    rw [e3] at hl'
    show 0 < (W'.link l).vmax ∧ 1 / 1000000000 ≤ (W'.link l).len
    rw [sp.len, sp.vmax]
    exact p.link l hl'
  refine ⟨p', e2', fun w hw => ?_, fun l hl t htl => ?_⟩
  · have hw' : w < W'.g.nVehs := hw
    rw [e4] at hw'
    exact step_tame r hσ hnd hh he (hc w hw')
  · obtain ⟨W1, W2, W3, W4, W5, W6, st, hW'⟩ := step_split r hσ he
    have hl' : l < W'.g.nLinks := hl
    rw [e3] at hl'
    have k0 := Keep.clearExc W
    have k6 := ((((k0.trans st.k1).trans (Acts.keep st.gen)).trans (Acts.keep st.trans)).trans st.k4).trans (Acts.keep st.run)
    have kk := k6.trans (Acts.keep st.wait)
    have tt4 : SameTt W3 W4 := fun l => by rw [st.aim.placed.link]
    have tt : SameTt W1 W' := by
      rw [hW']
      refine ((((((Acts.sameTt st.gen).trans (Acts.sameTt st.trans)).trans tt4).trans (Acts.sameTt st.run)).trans
        (Acts.sameTt st.wait)).trans (sameTt_home home hnd W6 (fun v hv => ?_))).trans (sameTt_endStep _)
      rw [kk.home v (hh v hv).2]; exact (hh v hv).2
    show (W'.link l).len / (W'.link l).vmax ≤ (W'.link l).ttInst t
    rw [sp.len, sp.vmax, tt l]
    have htl' : t < W.g.timestep + 1 := htl
    by_cases e : t = W.g.timestep
    · subst e
      have := (st.tt1 l).2 hl'
      rw [show W.clearExc.g.timestep = W.g.timestep from rfl] at this
      rw [this]
      exact newTt_ge (p.keep k0) hl' (fun v hv => (hsl.veh l hl' v hv).2) (fun t h => ht l hl' t h)
    · rw [(st.tt1 l).1 t e]
      exact ht l hl' t (by omega)

theorem Tame.start {W : CWorld} (h : CReach W) (ro : Roads W) (hdt : 0 < W.g.deltaT) {v : ℕ} (hv : v < W.g.nVehs)
    (hs : (W.veh v).state = .home) : Tame W v := by
  obtain ⟨a, b, c, d⟩ := h.pristine v (Or.inl hs)
  have key : ∀ (p : Option ℕ) (xs : List CLog), (∀ o ∈ xs.map CLog.link, o = none) → Driven W p xs := by
    intro p xs
    induction xs generalizing p with
    | nil => exact fun _ => trivial
    | cons e t ih =>
      intro hx
      refine ⟨fun l hl => ?_, ih _ (fun o ho => hx o (by simp only [List.map_cons, List.mem_cons]; exact Or.inr ho))⟩
      rw [hx e.link (by simp)] at hl; simp at hl
  refine ⟨ro, hdt, hv, key _ _ a, fun _ => ⟨b, d⟩, fun hh => ?_, fun _ hh => ?_, fun _ _ l hl => ?_⟩
  · rw [hs] at hh; simp at hh
  · rw [hs] at hh; simp at hh
  · rw [d] at hl; simp at hl

theorem Spec.Goes.tame {W W' : CWorld} (g : Goes W W') (h : CReach W) (p : KPar W) (k : KAll W (fun _ => 0)) (ro : Roads W)
    (hdt : 0 < W.g.deltaT) {v : ℕ} (hv : v < W.g.nVehs) (hs : (W.veh v).state = .home) :
    CReach W' ∧ KPar W' ∧ KAll W' (fun _ => 0) ∧ Tame W' v := by
  induction g with
  | none => exact ⟨h, p, k, Tame.start h ro hdt hv hs⟩
  | run g sched hsv endTs hr ih =>
    obtain ⟨a, b, c, d⟩ := ih
    obtain ⟨b', c', _⟩ := main_kin hsv a.rest hr b c
    refine ⟨a.step (CleanStep.run _ _ endTs sched hsv hr).toStep, b', c', ?_⟩
    exact main_induct (P := fun W => Tame W v) (fun r hσ hnd hh he _ _ h => step_tame r hσ hnd hh he h) hsv a.rest hr b c d

theorem Spec.Goes.allTame {W W' : CWorld} (g : Goes W W') (h : CReach W) (p : KPar W) (k : KAll W (fun _ => 0))
    (ro : Roads W) (hdt : 0 < W.g.deltaT) (hs : ∀ v, v < W.g.nVehs → (W.veh v).state = .home) (ht : W.g.timestep = 0) :
    CReach W' ∧ KPar W' ∧ KAll W' (fun _ => 0) ∧ AllTame W' := by
  induction g with
  | none =>
    exact ⟨h, p, k, ro, hdt, fun v hv => Tame.start h ro hdt hv (hs v hv), fun l _ t htl => by rw [ht] at htl; omega⟩
  | run g sched hsv endTs hr ih =>
    obtain ⟨a, b, c, d⟩ := ih
    obtain ⟨b', c', _⟩ := main_kin hsv a.rest hr b c
    refine ⟨a.step (CleanStep.run _ _ endTs sched hsv hr).toStep, b', c', ?_⟩
    exact main_induct (P := AllTame) (fun r hσ hnd hh he _ _ h => step_all r hσ hnd hh he h) hsv a.rest hr b c d

end UX.Cpp
