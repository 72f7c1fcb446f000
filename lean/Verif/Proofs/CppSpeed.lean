import Verif.Spec.CppSpeed
import Verif.Proofs.CppStages
import Verif.Proofs.CppEntries

/-!
# Speeds in the C++ engine: one action
-/

namespace UX.Cpp
open CWorld Relation Spec

/-! ## Logs -/

/-- The link of the last entry, `p` if there is none. -/
def lst : Option ℕ → List CLog → Option ℕ
  | p, [] => p
  | _, e :: r => lst e.link r

theorem lst_snoc (p : Option ℕ) (xs : List CLog) (e : CLog) : lst p (xs ++ [e]) = e.link := by
  induction xs generalizing p with
  | nil => rfl
  | cons d r ih => exact ih _

theorem lst_last {p : Option ℕ} {xs : List CLog} {e : CLog} (h : xs.getLast? = some e) : lst p xs = e.link := by
  obtain ⟨ys, rfl⟩ := List.getLast?_eq_some_iff.1 h
  exact lst_snoc p ys e

/-- One row of `Driven`. -/
def Row (W : CWorld) (p : Option ℕ) (e : CLog) : Prop :=
  ∀ l, e.link = some l → 0 ≤ e.x ∧ e.x ≤ (W.link l).len ∧ 0 ≤ e.v ∧ e.v ≤ max (W.link l).vmax (limitOf W p)

theorem driven_snoc {W : CWorld} {p : Option ℕ} {xs : List CLog} {e : CLog} (h : Driven W p xs)
    (hr : Row W (lst p xs) e) : Driven W p (xs ++ [e]) := by
  induction xs generalizing p with
  | nil => exact ⟨hr, trivial⟩
  | cons d r ih => exact ⟨h.1, ih h.2 hr⟩

theorem limitOf_keep {W W' : CWorld} (k : SamePar W W') (p : Option ℕ) : limitOf W' p = limitOf W p := by
  unfold limitOf; split
  · rw [k.vmax]
  · rfl

theorem driven_keep {W W' : CWorld} (k : SamePar W W') {p : Option ℕ} {xs : List CLog} (h : Driven W p xs) :
    Driven W' p xs := by
  induction xs generalizing p with
  | nil => trivial
  | cons d r ih =>
    refine ⟨fun l hl => ?_, ih h.2⟩
    rw [k.len, k.vmax, limitOf_keep k]; exact h.1 l hl

theorem driven_mute {W : CWorld} {p : Option ℕ} {xs ys : List CLog} (h : Driven W p xs) (hm : Mute xs ys) :
    Driven W p ys := by
  rcases hm with rfl | ⟨e, he, rfl⟩
  · exact h
  · exact driven_snoc h (fun l hl => by rw [he] at hl; simp at hl)

theorem logData_log (W : CWorld) (v : ℕ) (s : Option ℕ) :
    ((W.logData v s).veh v).log = if W.g.logMode then (W.veh v).log ++ [W.logEntry v s] else (W.veh v).log := by
  unfold logData logPush
  rw [logStats_g]
  split
  · rw [setV_veh, if_pos rfl]
    show ((W.logStats v).veh v).log ++ _ = _
    have e : (W.logStats v).logEntry v s = W.logEntry v s := by
      unfold logEntry logSpacing
      simp only [logStats_veh, logStats_g]
    rw [e, logStats_veh]
  · rw [logStats_veh]

/-- In the first two stages only ends of trips are logged. -/
theorem Act.muteEarly {s : Stage} {W W' : CWorld} (hs : s = .gen ∨ s = .trans) (a : Act s W W') (w : ℕ) :
    Mute (W.veh w).log (W'.veh w).log := by
  have setV : ∀ (X : CWorld) (v : ℕ) (f : CVeh → CVeh), (∀ V, (f V).log = V.log) →
      ((X.setV v f).veh w).log = (X.veh w).log := fun X v f h => by
    rw [setV_veh]; split
    · rename_i e; subst e; exact h _
    · rfl
  cases a with
  | genErr _ n e => exact Or.inl rfl
  | choose _ n v t o rng i hi hq hc => exact Or.inl (setV _ v _ (by intro V; rfl))
  | depart _ n v l t i hi hq hl hn hc hch =>
    obtain ⟨hvn, hst, hor⟩ := (i.gen n v).1 (by rw [hq]; simp)
    have hnot : ∀ m, v ∉ (W.link m).vehs := fun m hm => by
      have := (i.mem m v hm).2.1; rw [hst] at this; simp at this
    left
    simp only [CWorld.depart, setL_veh]
    rw [attach_veh _ _ _ _ (by simpa using hnot l)]
    simp only [setV_veh, setN_veh]
    split
    · rename_i e; subst e; simp
    · simp
  | signal _ n => exact Or.inl rfl
  | flow _ n => exact Or.inl rfl
  | collect _ n i hi => exact Or.inl (by rw [collect_veh])
  | draw _ n rng => exact Or.inl rfl
  | move _ n v a b t k ha hq hb hn hf hc hr ho hs hm =>
    have i := k.inv
    have hv0 : (W.moveVeh n v a b).veh = ((W.moved n v a b).endFront a).1.veh := rfl
    have hm' : ((W.moved n v a b).veh w).log = (W.veh w).log := by
      by_cases e : w = v
      · subst e
        obtain ⟨ln, ld, q, eq⟩ := moved_veh_self (n := n) (b := b) i hq
        rw [eq]
      · rw [moved_veh_other (n := n) (b := b) i hq w e]
    rw [hv0]
    rcases moved_endFront (n := n) (b := b) i hq with e' | ⟨h', t', e1, hne, hfh, e'⟩
    · exact Or.inl (by rw [e']; exact hm')
    · rw [e']
      by_cases e2 : w = h'
      · subst e2
        have := (endTripOn_quiet (W.moved n v a b) w a)
        rw [hm'] at this
        exact this
      · exact Or.inl ((pkey_log (endTripOn_pkey_ne _ e2)).trans hm')
  | endFront _ v l t i hq hna hni hf =>
    by_cases e : w = v
    · subst e; exact endTripOn_quiet W w l
    · exact Or.inl (pkey_log (endTripOn_pkey_ne W e))
  | finish _ n => exact Or.inl rfl
  | _ => simp at hs

/-! ## A vehicle before the car following -/

/-- The speed of the vehicle `V`; `r`: it waits in a transfer buffer; `d`: it has moved in the last pass. -/
structure Spd (W : CWorld) (r d : Prop) (V : CVeh) : Prop where
  log : Driven W none V.log
  fresh : V.state = .home ∨ V.state = .wait → V.moveRem = 0 ∧ V.link = none
  on : V.state = .run → ∀ l, V.link = some l → l < W.g.nLinks ∧ 0 ≤ V.x ∧ V.x ≤ (W.link l).len ∧ 0 ≤ V.v ∧
    0 ≤ V.moveRem ∧ (V.moveRem ≠ 0 → V.x = (W.link l).len ∧ V.moveRem ≤ (W.link l).vmax * W.g.deltaT) ∧
    (W.g.logMode = true → V.v ≤ max (W.link l).vmax (limitOf W (lst none V.log)))
  slow : d ∨ r → V.state = .run → ∀ l, V.link = some l → V.v * W.g.deltaT + V.moveRem ≤ (W.link l).vmax * W.g.deltaT
  seen : r → W.g.logMode = true → ∀ l, V.link = some l → lst none V.log = some l

theorem Spd.keep {W W' : CWorld} (k : SamePar W W') (hd : W'.g.deltaT = W.g.deltaT) (hn : W'.g.nLinks = W.g.nLinks)
    (hm : W'.g.logMode = W.g.logMode) {r d : Prop} {V : CVeh} (h : Spd W r d V) : Spd W' r d V := by
  refine ⟨driven_keep k h.log, h.fresh, fun hs l hl => ?_, fun hr hs l hl => ?_, by rw [hm]; exact h.seen⟩
  · rw [k.len, k.vmax, hn, hd, hm, limitOf_keep k]; exact h.on hs l hl
  · rw [k.vmax, hd]; exact h.slow hr hs l hl

theorem Spd.weaken {W : CWorld} {r d r' d' : Prop} {V : CVeh} (h : Spd W r d V) (hr : r' → r) (hd : d' → d) :
    Spd W r' d' V :=
  ⟨h.log, h.fresh, h.on, fun hh => h.slow (hh.imp hd hr), fun hh => h.seen (hr hh)⟩

/-- The fields that matter. -/
def CVeh.spd (V : CVeh) := (V.state, V.link, V.x, V.v, V.moveRem, V.log)

theorem Spd.over {W : CWorld} {r d r' d' : Prop} {V V' : CVeh} (h : Spd W r d V) (hr : r' → r) (hd : d' → d)
    (hp : V'.spd = V.spd) : Spd W r' d' V' := by
  simp only [CVeh.spd, Prod.mk.injEq] at hp
  obtain ⟨h1, h2, h3, h4, h5, h6⟩ := hp
  refine ⟨by rw [h6]; exact h.log, by rw [h1, h2, h5]; exact h.fresh, ?_, ?_, ?_⟩
  · rw [h1, h2, h3, h4, h5, h6]; exact h.on
  · rw [h1, h2, h4, h5]; exact fun hh => h.slow (hh.imp hd hr)
  · rw [h2, h6]; exact fun hh => h.seen (hr hh)

/-- A vehicle that has left the road. -/
theorem Spd.off {W : CWorld} {r d : Prop} {V : CVeh} (hl : Driven W none V.log)
    (hs : V.state = .abort ∨ V.state = .ended) (hk : V.link = none) : Spd W r d V := by
  refine ⟨hl, fun h => ?_, fun h => ?_, fun _ h => ?_, fun _ _ l h => by rw [hk] at h; simp at h⟩
  · rcases hs with e | e <;> rw [e] at h <;> simp at h
  · rcases hs with e | e <;> rw [e] at h <;> simp at h
  · rcases hs with e | e <;> rw [e] at h <;> simp at h

theorem Spd.early {W : CWorld} {r r' : Prop} {w : ℕ} {V' : CVeh} (p : Roads W) (hdt : 0 < W.g.deltaT)
    (h : Spd W r False (W.veh w)) (hc : EarlyCh W w V') (hl : Mute (W.veh w).log V'.log) (hr : r' → r)
    (hn : r' → V'.count = (W.veh w).count) (hreq : (∃ n, w ∈ (W.node n).incoming) → r) :
    Spd W r' False V' := by
  cases hc with
  | same e => subst e; exact h.over hr id rfl
  | ptr l q s ho e => subst e; exact h.over hr id rfl
  | nextGen o hs e => subst e; exact h.over hr id rfl
  | depart l ln ld hs hlt hnx ho e =>
    have hno : ¬ r' := fun hr' => by have := hn hr'; rw [e] at this; simp at this
    obtain ⟨f1, f2⟩ := h.fresh (Or.inr hs)
    obtain ⟨hu, he⟩ := p.link l hlt
    subst e
    refine ⟨h.log, fun hs => by simp at hs, fun _ m hm => ?_, fun hf => (hf.elim id hno).elim, fun hf => (hno hf).elim⟩
    obtain rfl := Option.some.inj hm
    refine ⟨hlt, le_rfl, ?_, hu.le, le_of_eq f1.symm, fun hne => absurd f1 hne, fun _ => le_max_left _ _⟩
    show 0 ≤ (W.link l).len; linarith
  | move a b ln ld q ha hb hf hnx he e hq hm =>
    have hno : ¬ r' := fun hr' => by have := hn hr'; rw [e] at this; simp at this
    have hst := ha.state
    have hR := hreq hm
    obtain ⟨o1, o2, o3, o4, o5, o6, o7⟩ := h.on hst a ha.link
    have hsl := h.slow (Or.inr hR) hst a ha.link
    have hse := fun hm => h.seen hR hm a ha.link
    obtain ⟨hu, hlen⟩ := p.link a ha.lt
    obtain ⟨hub, hlenb⟩ := p.link b hb
    obtain ⟨q1, q2, q3⟩ := hq (by linarith)
    subst e
    refine ⟨h.log, fun hs => ?_, fun _ m hm => ?_, fun hf => (hf.elim id hno).elim, fun hf => (hno hf).elim⟩
    · have : (W.veh w).state = .home ∨ (W.veh w).state = .wait := hs
      rw [hst] at this; simp at this
    · obtain rfl := Option.some.inj hm
      refine ⟨hb, q1, q2, ?_, le_rfl, fun hne => absurd rfl hne, fun hlm => ?_⟩
      · show 0 ≤ W.g.fl ((W.veh w).v + W.g.fl (q / W.g.deltaT))
        rw [p.fl]
        exact add_nonneg o4 (div_nonneg q1 hdt.le)
      · show W.g.fl ((W.veh w).v + W.g.fl (q / W.g.deltaT)) ≤ max (W.link b).vmax (limitOf W (lst none (W.veh w).log))
        rw [hse hlm, p.fl]
        simp only [id, limitOf]
        rw [p.fl] at q3
        simp only [id] at q3
        rw [max_eq_right (div_nonneg (mul_nonneg o5 hub.le) hu.le)] at q3
        have h1 : (W.veh w).v * W.g.deltaT + q ≤ max (W.link b).vmax (W.link a).vmax * W.g.deltaT := by
          have hb' : (W.link b).vmax ≤ max (W.link b).vmax (W.link a).vmax := le_max_left _ _
          have ha' : (W.link a).vmax ≤ max (W.link b).vmax (W.link a).vmax := le_max_right _ _
          generalize max (W.link b).vmax (W.link a).vmax = M at *
          have h2 : q ≤ (W.veh w).moveRem * M / (W.link a).vmax :=
            q3.trans (div_le_div_of_nonneg_right (mul_le_mul_of_nonneg_left hb' o5) hu.le)
          have h3 : (W.veh w).v * W.g.deltaT ≤ (W.veh w).v * W.g.deltaT * M / (W.link a).vmax := by
            rw [le_div_iff₀ hu]
            exact mul_le_mul_of_nonneg_left ha' (mul_nonneg o4 hdt.le)
          have h4 : ((W.veh w).v * W.g.deltaT + (W.veh w).moveRem) * M / (W.link a).vmax ≤ M * W.g.deltaT := by
            rw [div_le_iff₀ hu]
            have := mul_le_mul_of_nonneg_right hsl (hu.le.trans ha')
            linarith
          have h5 : ((W.veh w).v * W.g.deltaT + (W.veh w).moveRem) * M / (W.link a).vmax =
            (W.veh w).v * W.g.deltaT * M / (W.link a).vmax + (W.veh w).moveRem * M / (W.link a).vmax := by ring
          linarith
        have h6 : (W.veh w).v + q / W.g.deltaT = ((W.veh w).v * W.g.deltaT + q) / W.g.deltaT := by
          field_simp
        rw [h6, div_le_iff₀ hdt]
        exact h1
  | ends l q s ho hf e =>
    have e1 : V'.state = if (W.veh w).flagAbort then .abort else .ended := congrArg CVeh.state e
    have e2 : V'.link = none := congrArg CVeh.link e
    refine Spd.off (driven_mute h.log hl) ?_ e2
    rw [e1]; split
    · exact Or.inl rfl
    · exact Or.inr rfl

theorem Acts.earlySpd {s : Stage} {W W' : CWorld} (hs : s = .gen ∨ s = .trans) (a : Acts s W W') (p : Roads W)
    (hdt : 0 < W.g.deltaT) {w : ℕ} (h : Spd W (Req W w) False (W.veh w)) : Spd W' (Req W' w) False (W'.veh w) := by
  induction a with
  | refl => exact h
  | tail b c ih =>
    have k := c.keep
    have kb := Acts.keep b
    have q := ih.early (p.keep kb) (by rw [kb.g]; exact hdt) (c.early hs w) (c.muteEarly hs w)
      (fun h => (c.reqEarly hs w h).1) (fun h => (c.reqEarly hs w h).2) (fun h => Or.inr h)
    exact q.keep k.samePar (by rw [k.g]) (by rw [k.g]) (by rw [k.g])

/-! ## The RUN pass -/

/-- A vehicle in the RUN pass. -/
structure Run (W : CWorld) (r d : Prop) (V : CVeh) : Prop where
  log : Driven W none V.log
  fresh : V.state = .home ∨ V.state = .wait → V.moveRem = 0 ∧ V.link = none
  on : V.state = .run → ∀ l, V.link = some l → l < W.g.nLinks ∧ 0 ≤ V.x ∧ V.x ≤ V.xNext ∧ V.xNext ≤ (W.link l).len ∧
    0 ≤ V.v ∧ 0 ≤ V.moveRem ∧ (V.moveRem ≠ 0 → V.xNext = (W.link l).len) ∧
    V.xNext - V.x + V.moveRem ≤ (W.link l).vmax * W.g.deltaT ∧
    (W.g.logMode = true → V.v ≤ max (W.link l).vmax (limitOf W (lst none V.log)))
  slow : d → V.state = .run → ∀ l, V.link = some l → V.x = V.xNext ∧
    V.v * W.g.deltaT + V.moveRem ≤ (W.link l).vmax * W.g.deltaT
  seen : r → W.g.logMode = true → ∀ l, V.link = some l → lst none V.log = some l

theorem Run.keep {W W' : CWorld} (k : SamePar W W') (hd : W'.g.deltaT = W.g.deltaT) (hn : W'.g.nLinks = W.g.nLinks)
    (hm : W'.g.logMode = W.g.logMode) {r d : Prop} {V : CVeh} (h : Run W r d V) : Run W' r d V := by
  refine ⟨driven_keep k h.log, h.fresh, fun hs l hl => ?_, fun hr hs l hl => ?_, by rw [hm]; exact h.seen⟩
  · rw [k.len, k.vmax, hn, hd, hm, limitOf_keep k]; exact h.on hs l hl
  · rw [k.vmax, hd]; exact h.slow hr hs l hl

/-- The fields that matter. -/
def CVeh.spdRun (V : CVeh) := (V.state, V.link, V.x, V.xNext, V.v, V.moveRem, V.log)

theorem Run.over {W : CWorld} {r d r' d' : Prop} {V V' : CVeh} (h : Run W r d V) (hr : r' → r) (hd : d' → d)
    (hp : V'.spdRun = V.spdRun) : Run W r' d' V' := by
  simp only [CVeh.spdRun, Prod.mk.injEq] at hp
  obtain ⟨h1, h2, h3, h3', h4, h5, h6⟩ := hp
  refine ⟨by rw [h6]; exact h.log, by rw [h1, h2, h5]; exact h.fresh, ?_, ?_, ?_⟩
  · rw [h1, h2, h3, h3', h4, h5, h6]; exact h.on
  · rw [h1, h2, h3, h3', h4, h5]; exact fun hh => h.slow (hd hh)
  · rw [h2, h6]; exact fun hh => h.seen (hr hh)

theorem Run.off {W : CWorld} {r d : Prop} {V : CVeh} (hl : Driven W none V.log)
    (hs : V.state = .abort ∨ V.state = .ended) (hk : V.link = none) : Run W r d V := by
  refine ⟨hl, fun h => ?_, fun h => ?_, fun _ h => ?_, fun _ _ l h => by rw [hk] at h; simp at h⟩
  · rcases hs with e | e <;> rw [e] at h <;> simp at h
  · rcases hs with e | e <;> rw [e] at h <;> simp at h
  · rcases hs with e | e <;> rw [e] at h <;> simp at h

theorem Spd.aimed {W V : CWorld} {D : ℕ → Prop} {w : ℕ} (p : Roads W) (h : Spd W False False (W.veh w))
    (a : Aimed W V D) (hD : (W.veh w).state = .run → D w) : Run W False False (V.veh w) := by
  obtain ⟨xn, q, e, hq, hd⟩ := a.veh w
  rw [e]
  refine ⟨h.log, fun hs => ?_, fun hs l hl => ?_, fun hf => hf.elim, fun hf => hf.elim⟩
  · obtain ⟨f1, f2⟩ := h.fresh hs
    exact ⟨(hq.resolve_right (fun ⟨l, hl, _⟩ => by rw [f2] at hl; simp at hl)).trans f1, f2⟩
  · have hs' : (W.veh w).state = .run := hs
    have hl' : (W.veh w).link = some l := hl
    obtain ⟨o1, o2, o3, o4, o5, o6, o7⟩ := h.on hs' l hl'
    obtain ⟨rfl, rfl⟩ := hd (hD hs') l hl'
    obtain ⟨hu, hlen⟩ := p.link l o1
    have hud : 0 ≤ (W.link l).vmax * W.g.deltaT := mul_nonneg hu.le p.dt
    obtain ⟨g1, g2⟩ := followPos_le (v := w) (l := l) (by rw [p.fl]; exact hud) p.fl
    obtain ⟨a1, a2⟩ := aim_bounds (v := w) (l := l) o3
    refine ⟨o1, o2, a1, a2, o4, ?_, ?_, ?_, o7⟩
    · show 0 ≤ W.rest w l
      unfold CWorld.rest; split
      · rename_i hlt; rw [p.fl]; simp only [id]; linarith
      · exact o5
    · show W.rest w l ≠ 0 → W.aim w l = _
      unfold CWorld.rest CWorld.aim
      split
      · exact fun _ => rfl
      · rename_i hlt
        intro hr
        have := (o6 hr).1
        linarith
    · show W.aim w l - (W.veh w).x + W.rest w l ≤ _
      unfold CWorld.rest CWorld.aim
      split
      · rw [p.fl]; simp only [id]; linarith
      · rename_i hlt
        by_cases hr : (W.veh w).moveRem = 0
        · rw [hr]; linarith
        · obtain ⟨hx, hm⟩ := o6 hr
          have he : W.followPos w l = (W.veh w).x := by linarith
          rw [he]; linarith

theorem Run.advance {W : CWorld} {r d r' d' : Prop} {w : ℕ} (p : Roads W) (hdt : 0 < W.g.deltaT)
    (h : Run W r d (W.veh w)) (hr : r' → r) : Run W r' d' ((W.advance w).veh w) := by
  unfold CWorld.advance
  rw [setV_veh, if_pos rfl]
  have key : (W.veh w).state = .run → ∀ l, (W.veh w).link = some l →
      W.g.fl (W.g.fl ((W.veh w).xNext - (W.veh w).x) / W.g.deltaT) * W.g.deltaT + (W.veh w).moveRem ≤
        (W.link l).vmax * W.g.deltaT := fun hs l hl => by
    obtain ⟨o1, o2, o3, o4, o5, o6, o7, o8, o9⟩ := h.on hs l hl
    rw [p.fl]
    simp only [id]
    rw [div_mul_cancel₀ _ hdt.ne']
    exact o8
  refine ⟨h.log, h.fresh, fun hs l hl => ?_, fun _ hs l hl => ⟨rfl, key hs l hl⟩, fun hh => h.seen (hr hh)⟩
  have hk := key hs l hl
  obtain ⟨o1, o2, o3, o4, o5, o6, o7, o8, o9⟩ := h.on hs l hl
  refine ⟨o1, o2.trans o3, le_rfl, o4, ?_, o6, o7, ?_, fun _ => ?_⟩
  · show 0 ≤ W.g.fl (W.g.fl ((W.veh w).xNext - (W.veh w).x) / W.g.deltaT)
    rw [p.fl]; simp only [id]
    exact div_nonneg (by linarith) hdt.le
  · show (W.veh w).xNext - (W.veh w).xNext + (W.veh w).moveRem ≤ _
    linarith
  · refine le_max_of_le_left ?_
    have : W.g.fl (W.g.fl ((W.veh w).xNext - (W.veh w).x) / W.g.deltaT) * W.g.deltaT ≤ (W.link l).vmax * W.g.deltaT := by
      linarith
    exact le_of_mul_le_mul_right this hdt

/-- Another log. -/
theorem Run.relog {W : CWorld} {r d r' d' : Prop} {A B : CVeh} (h : Run W r' d A) (hd : d' → d)
    (hp : (B.state, B.link, B.x, B.xNext, B.v, B.moveRem) = (A.state, A.link, A.x, A.xNext, A.v, A.moveRem))
    (hl : Driven W none B.log) (hv : ∀ l, A.link = some l → A.v ≤ (W.link l).vmax ∧ lst none B.log = some l) :
    Run W r d' B := by
  simp only [Prod.mk.injEq] at hp
  obtain ⟨h1, h2, h3, h4, h5, h6⟩ := hp
  refine ⟨hl, by rw [h1, h2, h6]; exact h.fresh, fun hs l hk => ?_, ?_, fun _ _ l hk => ?_⟩
  · rw [h1] at hs; rw [h2] at hk
    obtain ⟨o1, o2, o3, o4, o5, o6, o7, o8, o9⟩ := h.on hs l hk
    rw [h3, h4, h5, h6]
    exact ⟨o1, o2, o3, o4, o5, o6, o7, o8, fun _ => le_max_of_le_left (hv l hk).1⟩
  · rw [h1, h2, h3, h4, h5, h6]; exact fun hh => h.slow (hd hh)
  · rw [h2] at hk; exact (hv l hk).2

/-- A log entry and the move after it. -/
theorem Run.logged {W : CWorld} {r d r' d' : Prop} {v l : ℕ} {s : Option ℕ} (p : Roads W) (hdt : 0 < W.g.deltaT)
    (h : Run W r d (W.veh v)) (hr : r' → r)
    (hs : (W.veh v).state = .run) (hl : (W.veh v).link = some l) : Run W r' d' (((W.logData v s).advance v).veh v) := by
  have hn := congrArg (fun V : CVeh => (V.state, V.link, V.x, V.xNext, V.v, V.moveRem)) (logData_noLog W v s v)
  simp only [CVeh.noLog, Prod.mk.injEq] at hn
  obtain ⟨h1, h2, h3, h3', h4, h5⟩ := hn
  have hlog := logData_log W v s
  have hA := h.advance (r' := r') (d' := True) p hdt hr
  unfold CWorld.advance at hA ⊢
  rw [setV_veh, if_pos rfl] at hA ⊢
  rw [core_g (core_logData W v s)]
  by_cases hm : W.g.logMode = true
  · rw [if_pos hm] at hlog
    have he : (W.logEntry v s).link = some l ∧ (W.logEntry v s).x = (W.veh v).x ∧ (W.logEntry v s).v = (W.veh v).v := by
      unfold logEntry; rw [if_pos hs]; exact ⟨hl, rfl, rfl⟩
    have hlst : lst none ((W.logData v s).veh v).log = some l := by rw [hlog, lst_snoc]; exact he.1
    obtain ⟨o1, o2, o3, o4, o5, o6, o7, o8, o9⟩ := h.on hs l hl
    obtain ⟨_, _, _, _, _, p6, _⟩ := hA.on hs l hl
    have hsl := (hA.slow trivial hs l hl).2
    refine hA.relog (fun _ => trivial) ?_ ?_ (fun m hm' => ?_)
    · simp only [Prod.mk.injEq]
      rw [h1, h2, h3, h3', h5]
      exact ⟨rfl, rfl, rfl, rfl, rfl, rfl⟩
    · show Driven W none ((W.logData v s).veh v).log
      rw [hlog]
      refine driven_snoc h.log (fun m hm' => ?_)
      rw [he.1] at hm'
      obtain rfl := Option.some.inj hm'
      rw [he.2.1, he.2.2]
      exact ⟨o2, o3.trans o4, o5, o9 hm⟩
    · have hm2 : (W.veh v).link = some m := hm'
      rw [hl] at hm2
      obtain rfl := Option.some.inj hm2
      refine ⟨?_, hlst⟩
      refine le_of_mul_le_mul_right ?_ hdt
      exact le_trans (le_add_of_nonneg_right p6) hsl
  · rw [if_neg hm] at hlog
    refine hA.over id (fun _ => trivial) ?_
    simp only [CVeh.spdRun, Prod.mk.injEq]
    rw [h1, h2, h3, h3', h5]
    exact ⟨rfl, rfl, rfl, rfl, rfl, rfl, hlog⟩

theorem Run.act {W W' : CWorld} (a : Act .run W W') (p : Roads W) (hdt : 0 < W.g.deltaT) {w : ℕ} {d : Prop}
    (hm : Mute (W.veh w).log (W'.veh w).log) (h : Run W (Req W w) d (W.veh w)) :
    Run W (Req W' w) d (W'.veh w) := by
  cases a with
  | log _ v l s i hv =>
    have hc := core_logData W v s
    have hr : Req (W.logData v s) w → Req W w :=
      Req.of_eq (fun m => core_arrived hc m) (fun n hn => by rw [core_incoming hc] at hn; exact hn)
    by_cases e : w = v
    · subst e
      have hn := congrArg (fun V : CVeh => (V.state, V.link, V.x, V.xNext, V.v, V.moveRem)) (logData_noLog W w s w)
      have hlog : ((W.logData w s).veh w).log = (W.veh w).log := by
        rcases hm with hm | ⟨e, he, hm⟩
        · exact hm
        · have hlog := logData_log W w s
          split at hlog
          · rw [hlog] at hm
            have := List.append_cancel_left hm
            simp only [List.cons.injEq, and_true] at this
            rw [← this] at he
            unfold logEntry at he
            rw [if_pos (i.mem l w hv).2.1] at he
            have : (W.veh w).link = none := he
            rw [(i.mem l w hv).1] at this; simp at this
          · exact hlog
      refine h.over hr id ?_
      simp only [CVeh.noLog, Prod.mk.injEq] at hn
      simp only [CVeh.spdRun, Prod.mk.injEq]
      obtain ⟨h1, h2, h3, h3', h4, h5⟩ := hn
      exact ⟨h1, h2, h3, h3', h4, h5, hlog⟩
    · rw [logData_veh_ne W v w s e]; exact h.over hr id rfl
  | advance _ v l i hv =>
    have hreq : Req (W.advance v) w → Req W w := Req.of_eq (fun _ => rfl) (fun _ h => h)
    by_cases e : w = v
    · subst e; exact h.advance p hdt hreq
    · exact h.over hreq id (by unfold CWorld.advance; rw [setV_veh, if_neg e])
  | abort _ v l i hv hd ho ha =>
    refine h.over (Req.of_eq (fun _ => rfl) (fun _ h => h)) id ?_
    rw [setV_veh]; split
    · rename_i e; subst e; rfl
    · rfl
  | flag _ v l i hv hc hlg hx =>
    refine h.over (Req.of_eq (fun _ => rfl) (fun _ h => h)) id ?_
    rw [setV_veh]; split
    · rename_i e; subst e; rfl
    · rfl
  | endRun _ v l t i hq hna hi hf =>
    by_cases e : w = v
    · subst e
      have e := endTripOn_veh_self W w l
      have e1 : ((W.endTripOn w l).veh w).state = if (W.veh w).flagAbort then .abort else .ended := congrArg CVeh.state e
      have e2 : ((W.endTripOn w l).veh w).link = none := congrArg CVeh.link e
      refine Run.off (driven_mute h.log hm) ?_ e2
      rw [e1]; split
      · exact Or.inl rfl
      · exact Or.inr rfl
    · refine h.over req_endTripOn id ?_
      have hlog := pkey_log (endTripOn_pkey_ne W (l := l) e)
      rw [endTripOn_veh_ne _ _ _ _ e]; rfl
  | reqErr _ l e =>
    refine h.over (Req.of_eq (fun m => ?_) (fun _ h => h)) id rfl
    rw [setL_link]; split
    · rename_i e; subst e; rfl
    · rfl
  | req _ v l o rng i hv hd hc hx hlg =>
    by_cases e : w = v
    · subst e
      have ho := i.onRun hv
      rw [setL_veh, setV_veh, if_pos rfl]
      refine ⟨h.log, h.fresh, h.on, h.slow, fun _ hlm m hk => ?_⟩
      have : (W.veh w).link = some m := hk
      rw [ho.link] at this
      obtain rfl := Option.some.inj this
      obtain ⟨e, h1, h2⟩ := hlg hlm
      exact (lst_last h1).trans h2
    · refine h.over ?_ id (by rw [setL_veh, setV_veh, if_neg e])
      rintro (⟨m, hm⟩ | ⟨n, hn⟩)
      · rw [setL_link] at hm
        split at hm
        · rename_i e'; subst e'
          rcases List.mem_append.1 hm with hm | hm
          · exact Or.inl ⟨m, hm⟩
          · exact absurd (List.mem_singleton.1 hm) e
        · exact Or.inl ⟨m, hm⟩
      · exact Or.inr ⟨n, hn⟩

/-- The RUN pass. -/
theorem runLaw_spd (w : ℕ) : RunLaw (fun W D => Roads W ∧ 0 < W.g.deltaT ∧ Run W (Req W w) (D w) (W.veh w)) where
  weaken := fun h hd => ⟨h.1, h.2.1, h.2.2.over id (hd w) rfl⟩
  move := fun {W} {D} {v l} s i hv h => by
    obtain ⟨p, hdt, hr⟩ := h
    have hc := core_logData W v s
    have hc2 : ((W.logData v s).advance v).core = W.core := (core_advance _ v).trans hc
    have k : Keep W ((W.logData v s).advance v) := Acts.keep ((ReflTransGen.single (Act.log W v l s i hv)).tail
      (Act.advance _ v l (i.congr hc.symm) (by rw [core_vehs hc]; exact hv)))
    refine ⟨p.keep k, by rw [k.g]; exact hdt, ?_⟩
    have hreq : Req ((W.logData v s).advance v) w → Req W w :=
      Req.of_eq (fun m => core_arrived hc2 m) (fun n hn => by rw [core_incoming hc2] at hn; exact hn)
    refine Run.keep k.samePar (by rw [k.g]) (by rw [k.g]) (by rw [k.g]) ?_
    by_cases e : w = v
    · subst e
      exact hr.logged p hdt hreq (i.mem l w hv).2.1 (i.mem l w hv).1
    · have : ((W.logData v s).advance v).veh w = W.veh w := by
        unfold CWorld.advance
        rw [setV_veh, if_neg e, logData_veh_ne W v w s e]
      rw [this]
      exact hr.over hreq (fun h => h.resolve_right e) rfl
  act := fun {W W'} {D} a hm h => by
    obtain ⟨p, hdt, hr⟩ := h
    have k := a.keep
    exact ⟨p.keep k, by rw [k.g]; exact hdt,
      Run.keep k.samePar (by rw [k.g]) (by rw [k.g]) (by rw [k.g]) (hr.act a p hdt (hm w))⟩

/-- After the RUN pass. -/
theorem Run.spd {W : CWorld} {r d : Prop} {V : CVeh} (h : Run W r d V) (hdt : 0 < W.g.deltaT)
    (hd : V.state = .run → d) : Spd W r True V := by
  refine ⟨h.log, h.fresh, fun hs l hl => ?_, fun _ hs l hl => (h.slow (hd hs) hs l hl).2, h.seen⟩
  obtain ⟨o1, o2, o3, o4, o5, o6, o7, o8, o9⟩ := h.on hs l hl
  obtain ⟨hx, hv⟩ := h.slow (hd hs) hs l hl
  refine ⟨o1, o2, o3.trans o4, o5, o6, fun hne => ⟨hx.trans (o7 hne), ?_⟩, o9⟩
  have := mul_nonneg o5 hdt.le
  linarith

/-! ## Vehicles off the road -/

/-- A vehicle that is not on a link logs itself. -/
theorem Spd.logOff {W : CWorld} {r r' : Prop} {v : ℕ} {s : Option ℕ} (h : Spd W r True (W.veh v)) (hr : r' → r)
    (hs : (W.veh v).state = .home ∨ (W.veh v).state = .wait) : Spd W r' True ((W.logData v s).veh v) := by
  have hn := congrArg (fun V : CVeh => (V.state, V.link, V.x, V.v, V.moveRem)) (logData_noLog W v s v)
  simp only [CVeh.noLog, Prod.mk.injEq] at hn
  obtain ⟨h1, h2, h3, h4, h5⟩ := hn
  have hl : Driven W none ((W.logData v s).veh v).log := by
    rw [logData_log]
    split
    · refine driven_snoc h.log (fun l hl => ?_)
      have hne : (W.veh v).state ≠ .run := by rcases hs with e | e <;> rw [e] <;> simp
      unfold logEntry at hl
      rw [if_neg hne] at hl
      simp at hl
    · exact h.log
  have hne : ((W.logData v s).veh v).state ≠ .run := by
    rw [h1]; rcases hs with e | e <;> rw [e] <;> simp
  refine ⟨hl, by rw [h1, h2, h5]; exact h.fresh, fun hh => absurd hh hne, fun _ hh => absurd hh hne, fun _ _ l hk => ?_⟩
  rw [h2, (h.fresh hs).2] at hk
  simp at hk

theorem Acts.spdWait {W W' : CWorld} (a : Acts .wait W W') {w : ℕ} (h : Spd W (Req W w) True (W.veh w)) :
    Spd W' (Req W' w) True (W'.veh w) := by
  induction a with
  | refl => exact h
  | tail b c ih =>
    have k := c.keep
    refine Spd.keep k.samePar (by rw [k.g]) (by rw [k.g]) (by rw [k.g]) ?_
    cases c with
    | waitLog _ n v i hv =>
      rename_i X
      have hc := core_logData X v none
      have hr : Req (X.logData v none) w → Req X w :=
        Req.of_eq (fun m => core_arrived hc m) (fun n hn => by rw [core_incoming hc] at hn; exact hn)
      by_cases e : w = v
      · subst e
        exact ih.logOff hr (Or.inr ((i.gen n w).1 hv).2.1)
      · rw [logData_veh_ne X v w none e]
        exact ih.over hr id rfl

/-- Departures. -/
theorem Spd.home {W : CWorld} {w v : ℕ} (hs : (W.veh v).state = .home)
    (h : Spd W (Req W w) True (W.veh w)) : Spd W (Req (W.vehUpdate v none) w) True ((W.vehUpdate v none).veh w) := by
  have hcr := core_logData W v none
  have hst : ((W.logData v none).veh v).state = .home := by rw [core_state hcr]; exact hs
  have hr : Req (W.logData v none) w → Req W w :=
    Req.of_eq (fun m => core_arrived hcr m) (fun n hn => by rw [core_incoming hcr] at hn; exact hn)
  have h1 : Spd W (Req W w) True ((W.logData v none).veh w) := by
    by_cases e : w = v
    · subst e; exact h.logOff id (Or.inl hs)
    · rw [logData_veh_ne W v w none e]; exact h
  unfold CWorld.vehUpdate
  simp only [hst]
  split
  · have hr' : Req (((W.logData v none).setV v (fun V => { V with state := .wait })).setN
        ((W.logData v none).veh v).orig (fun N => { N with genQ := N.genQ ++ [v] })) w → Req W w :=
      fun q => hr (req_setN (W := (W.logData v none).setV v (fun V => { V with state := .wait }))
        (by intro N hN; exact hN) q)
    by_cases e : w = v
    · subst e
      rw [setN_veh, setV_veh, if_pos rfl]
      have hf := h1.fresh (Or.inl hst)
      refine ⟨h1.log, fun _ => hf, fun hh => by simp at hh, fun _ hh => by simp at hh, fun _ _ l hk => ?_⟩
      have : ((W.logData w none).veh w).link = some l := hk
      rw [hf.2] at this; simp at this
    · rw [setN_veh, setV_veh, if_neg e]
      exact h1.over hr' id rfl
  · exact h1.over hr id rfl

theorem homePass_spd (xs : List ℕ) (hnd : xs.Nodup) {W : CWorld} (r : Rest W)
    (hx : ∀ v ∈ xs, v < W.g.nVehs ∧ (W.veh v).state = .home) {w : ℕ}
    (h : Spd W (Req W w) True (W.veh w)) :
    Spd (xs.foldl (fun W v => W.vehUpdate v none) W) (Req (xs.foldl (fun W v => W.vehUpdate v none) W) w) True
      ((xs.foldl (fun W v => W.vehUpdate v none) W).veh w) := by
  induction xs generalizing W with
  | nil => exact h
  | cons v t ih =>
    obtain ⟨hv, ht⟩ := List.nodup_cons.1 hnd
    obtain ⟨p, q, g, e⟩ := r.homeVeh (hx v (by simp)).1 (hx v (by simp)).2
    refine ih ht p (fun w hw => by
      rw [g, e w (fun h => hv (h ▸ hw))]; exact hx w (by simp [hw])) ?_
    exact (h.home (hx v (by simp)).2).keep q (by rw [g]) (by rw [g]) (by rw [g])

/-! ## Time steps -/

/-- The parallel region of a time step. -/
theorem Stages.spd {W W1 W2 W3 W4 W5 W6 : CWorld} (s : Stages W W1 W2 W3 W4 W5 W6) (p : Roads W)
    (hdt : 0 < W.g.deltaT) {w : ℕ} (hw : w < W.g.nVehs) (h : Spd W (Req W w) True (W.veh w)) :
    Keep W W6 ∧ Spd W6 (Req W6 w) True (W6.veh w) := by
  have k2 := s.k1.trans (Acts.keep s.gen)
  have k3 := k2.trans (Acts.keep s.trans)
  have k4 := k3.trans s.k4
  have k5 := k4.trans (Acts.keep s.run)
  have h1 : Spd W1 (Req W1 w) False (W1.veh w) := by
    rw [s.veh1]
    exact (h.weaken (s.req1 w) (fun hf => hf.elim)).keep s.k1.samePar (by rw [s.k1.g]) (by rw [s.k1.g]) (by rw [s.k1.g])
  have h2 := Acts.earlySpd (Or.inl rfl) s.gen (p.keep s.k1) (by rw [s.k1.g]; exact hdt) h1
  have h3 := Acts.earlySpd (Or.inr rfl) s.trans (p.keep k2) (by rw [k2.g]; exact hdt) h2
  have h4 : Run W4 (Req W4 w) False (W4.veh w) := by
    refine Run.keep s.k4.samePar (by rw [s.k4.g]) (by rw [s.k4.g]) (by rw [s.k4.g]) ?_
    refine (Spd.aimed (p.keep k3) (h3.weaken (fun hf => hf.elim) id) s.aim (fun hs => ?_)).over (s.req4 w) id rfl
    exact (s.r3.inv.run w (by rw [k3.g]; exact hw) hs).resolve_left (by simp)
  obtain ⟨p5, d5, h5⟩ := s.moved _ (runLaw_spd w) ⟨p.keep k4, by rw [k4.g]; exact hdt, h4⟩
  have h6 := h5.spd d5 (fun hs => (s.r5.inv.run w (by rw [k5.g]; exact hw) hs).resolve_left (by simp))
  exact ⟨k5.trans (Acts.keep s.wait), Acts.spdWait s.wait h6⟩

end UX.Cpp
