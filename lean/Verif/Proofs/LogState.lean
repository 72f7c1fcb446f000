import Verif.Props.Logs
import Verif.Proofs.KinInv

/-! # The states in the log of a vehicle -/

namespace UX
open World Relation

/-- The state of `v` before the vehicle-update phase, compared with the start `W` of the step. -/
structure EarlySt (v : VehId) (W X : World) : Prop where
  home : X.V.state v = .home ↔ W.V.state v = .home
  dead : v ∉ W.living → X.V.state v = W.V.state v
  gone : v ∈ W.living → v ∉ X.living → (X.V.log v).head?.map (·.state) = some (X.V.state v)

theorem EarlySt.prim {v : VehId} {W X Y : World} {a : Act} (ha : isEarly a) (hc : Core X)
    (hp : Prim a X Y) (h1 : X.cfg.logInterval = 1) (hl : v ∉ W.living → v ∉ X.living) (h : EarlySt v W X) :
    EarlySt v W Y := by
  have hnd := hc.s.living_nodup
  have hs := hp.shape hc.s
  clear hp
  cases hs with
  | @depart _ n u t cs l o hn hq hcs hl' hout hent hcum hlead =>
    have hwt := (hc.s.genq_mem n u (by simp [hq])).1
    by_cases e : v = u
    · subst e
      have hliv : v ∈ X.living := by
        refine (hc.s.living_iff v).2 ⟨?_, by rw [hwt]; simp, by rw [hwt]; simp⟩
        by_contra hlt
        have := hc.s.fresh v (Nat.le_of_not_lt hlt)
        rw [hwt] at this; cases this
      refine ⟨?_, fun hd => absurd hliv (hl hd), fun _ hd => absurd hliv hd⟩
      rw [← h.home, hwt]
      show upd X.V.state v _ v = _ ↔ _
      rw [upd_same]; simp
    · refine ⟨?_, fun hd => ?_, fun a b => ?_⟩
      · show upd X.V.state u _ v = _ ↔ _
        rw [upd_ne _ _ e]; exact h.home
      · show upd X.V.state u _ v = _
        rw [upd_ne _ _ e]; exact h.dead hd
      · show Option.map _ _ = some (upd X.V.state u _ v)
        rw [upd_ne _ _ e]; exact h.gone a b
  | @endTrip _ u l t log s c lt tta hlk hv hf hcd hrun hliv hlt hlog htta =>
    have hst := (hc.s.link_run u l hlk).1
    rw [if_pos (logDue_one h1 true)] at hlog
    subst hlog
    by_cases e : v = u
    · subst e
      refine ⟨?_, fun hd => absurd hliv (hl hd), fun _ _ => ?_⟩
      · rw [← h.home, hst]
        show upd X.V.state v _ v = _ ↔ _
        rw [upd_same]; split <;> simp
      · show (upd X.V.log v _ v).head?.map _ = some (upd X.V.state v _ v)
        rw [upd_same, upd_same]
        rfl
    · refine ⟨?_, fun hd => ?_, fun a b => ?_⟩
      · show upd X.V.state u _ v = _ ↔ _
        rw [upd_ne _ _ e]; exact h.home
      · show upd X.V.state u _ v = _
        rw [upd_ne _ _ e]; exact h.dead hd
      · show (upd X.V.log u _ v).head?.map _ = some (upd X.V.state u _ v)
        rw [upd_ne _ _ e, upd_ne _ _ e]
        refine h.gone a fun hm => b ?_
        exact (List.Nodup.mem_erase_iff hnd).2 ⟨e, hm⟩
  | record => exact ha.elim
  | startWait => exact ha.elim
  | noWait => exact ha.elim
  | advance => exact ha.elim
  | event => exact ha.elim
  | nextDest => exact ha.elim
  | flagEnd => exact ha.elim
  | flagAbort => exact ha.elim
  | choose => exact ha.elim
  | pushInc => exact ha.elim
  | _ => exact ⟨h.home, h.dead, h.gone⟩

/-- The states of `v` and of its newest log rows over one step from `W` to `W'`. -/
structure TickState (v : VehId) (W W' : World) : Prop where
  alive : v ∈ W'.living → ∃ r, W'.V.log v = r :: W.V.log v ∧ (r.state = .home ↔ W.V.state v = .home) ∧
    W'.V.state v = if r.state = .home ∧ W.V.depTime v ≤ W.T then .wait else r.state
  dead : v ∉ W.living → W'.V.log v = W.V.log v ∧ W'.V.state v = W.V.state v
  gone : v ∈ W.living → v ∉ W'.living → W.V.state v ≠ .home ∧ W'.V.state v ≠ .home ∧
    ∃ e, e.state = W'.V.state v ∧
      (W'.V.log v = e :: W.V.log v ∨ ∃ r, r.state ≠ .home ∧ W'.V.log v = e :: r :: W.V.log v)

theorem tick_state {v : VehId} {W W' : World} (hi : Inv W) (hf : W.finalized = true)
    (h1 : W.cfg.logInterval = 1) (h : W.tick = .ok W') : TickState v W W' := by
  obtain ⟨W0, h0, rfl⟩ := tick_ok h
  obtain ⟨W1, W2, W3, W4, W5, W6, ph, rfl⟩ := step_phases (hi.core hf) h0
  obtain ⟨hE, hU1, hU2⟩ := ph.log (v := v) (hi.core hf) h1
  have hS : EarlySt v W W4 := by
    let P : World → Prop := fun X => Static W X ∧ (v ∉ W.living → v ∉ X.living) ∧ EarlySt v W X
    have step : ∀ a X Y, isEarly a → Core X → Prim a X Y → P X → P Y := by
      rintro a X Y ha hc hp ⟨p1, p2, p3⟩
      have hY := p1.trans (Prim.static hp)
      refine ⟨hY, fun hd => ?_, p3.prim ha hc hp (by rw [p1.cfg]; exact h1) p2⟩
      have hno := p2 hd
      have hs := hp.shape hc.s
      clear hp
      cases hs with
      | endTrip => exact fun hm => hno (List.mem_of_mem_erase hm)
      | record => exact ha.elim
      | startWait => exact ha.elim
      | noWait => exact ha.elim
      | advance => exact ha.elim
      | _ => exact hno
    have e0 : P W := ⟨Static.refl W, fun h => h, ⟨Iff.rfl, fun _ => rfl, fun a b => absurd a b⟩⟩
    have e1 := ph.s1.inv_core (P := P) (fun a X Y ha hc hp ih => step a X Y (isEarly_of (.inl ha)) hc hp ih)
      (hi.core hf) e0
    have e2 := ph.s2.inv_core (P := P)
      (fun a X Y ha hc hp ih => step a X Y (isEarly_of (.inr (.inl ha))) hc hp ih) ph.c1 e1
    have e3 := ph.s3.inv_core (P := P)
      (fun a X Y ha hc hp ih => step a X Y (isEarly_of (.inr (.inr (.inl ha)))) hc hp ih) ph.c2 e2
    exact (ph.s4.inv_core (P := P)
      (fun a X Y ha hc hp ih => step a X Y (isEarly_of (.inr (.inr (.inr ha)))) hc hp ih) ph.c3 e3).2.2
  by_cases hv4 : v ∈ W4.living
  · obtain ⟨hvW, hl⟩ := hE.alive hv4
    have hU := hU1 hv4
    refine ⟨fun hm => ?_, fun hd => absurd hvW hd, fun _ hm => ?_⟩
    · obtain ⟨r, hr, -⟩ := hU.alive hm
      obtain ⟨a, b⟩ := hU.stays hm
      rw [hr] at a
      have a : r.state = W4.V.state v := by simpa using a
      refine ⟨r, by rw [← hl]; exact hr, by rw [a]; exact hS.home, ?_⟩
      rw [a, ← hE.static.T, ← hE.static.depTime]; exact b
    · obtain ⟨e, r, hr, -, -, hes, -, hrl, -⟩ := hU.gone hm
      have hb := (hU.ends hm).1
      rw [hr] at hb
      have hb : e.state = W6.V.state v ∧ r.state = W4.V.state v := by simpa using hb
      have hrun : W4.V.state v ≠ .home := by
        rw [(hU.ends hm).2]; simp
      refine ⟨fun hh => hrun (hS.home.2 hh), ?_, e, hb.1, .inr ⟨r, by rw [hb.2]; exact hrun, by rw [← hl]; exact hr⟩⟩
      show W6.V.state v ≠ .home
      rw [← hb.1]; rcases hes with h | h <;> rw [h] <;> simp
  · have hs := hU2 hv4
    have hn6 : v ∉ W6.living := fun hh => hv4 (hs.living.1 hh)
    refine ⟨fun hm => absurd hm hn6, fun hd => ⟨?_, hs.state.trans (hS.dead hd)⟩, fun hvW _ => ?_⟩
    · rcases hE.gone hv4 with ⟨-, b⟩ | ⟨a, -⟩
      · exact hs.log.trans b
      · exact absurd a hd
    · rcases hE.gone hv4 with ⟨a, -⟩ | ⟨-, e, b, -, d, -⟩
      · exact absurd hvW a
      · have := hS.gone hvW hv4
        rw [b] at this
        have hes : e.state = W4.V.state v := by simpa using this
        have hnh : W4.V.state v ≠ .home := by rw [← hes]; rcases d with h | h <;> rw [h] <;> simp
        refine ⟨fun hh => hnh (hS.home.2 hh), ?_, e, hes.trans hs.state.symm, .inl (hs.log.trans b)⟩
        show W6.V.state v ≠ .home
        rw [hs.state]; exact hnh

/-! ## The form of a row -/

/-- Rows of running vehicles show a link, the others show `-1` everywhere. -/
def RowForm (W : World) : Prop := ∀ v, ∀ r ∈ W.V.log v, (r.state = .run ↔ r.link.isSome) ∧
  (r.state ≠ .run → r.x = -1 ∧ r.s = -1 ∧ r.v = -1)

theorem mem_log_upd {P : LogRow → Prop} {f : VehId → List LogRow} {b : Bool} {u v : VehId} {e r : LogRow}
    (hr : r ∈ (if b then upd f u (e :: f u) else f) v) (he : P e) (hf : ∀ r ∈ f v, P r) : P r := by
  split at hr
  · by_cases h : v = u
    · subst h
      rw [upd_same] at hr
      rcases List.mem_cons.1 hr with rfl | hr
      · exact he
      · exact hf r hr
    · rw [upd_ne _ _ h] at hr; exact hf r hr
  · exact hf r hr

theorem RowForm.prim {X Y : World} {act : Act} (hc : Core X) (hp : Prim act X Y) (h : RowForm X) : RowForm Y := by
  have hs := hp.shape hc.s
  clear hp
  cases hs with
  | @endTrip _ u l t log s c lt tta hl hv hf hcd hrun hliv hlt hlog htta =>
    intro v r hr
    have hr : r ∈ log v := hr
    rw [hlog] at hr
    refine mem_log_upd (P := fun r => (r.state = .run ↔ r.link.isSome) ∧
      (r.state ≠ .run → r.x = -1 ∧ r.s = -1 ∧ r.v = -1)) hr ?_ (h v)
    have hes := endRow_spec X u
    refine ⟨?_, fun _ => ⟨rfl, rfl, rfl⟩⟩
    rw [hes.2.2]
    rcases hes.2.1 with e | e <;> simp [e]
  | @record _ u log s c lt hliv hlt hlog =>
    intro v r hr
    have hr : r ∈ log v := hr
    rw [hlog] at hr
    refine mem_log_upd (P := fun r => (r.state = .run ↔ r.link.isSome) ∧
      (r.state ≠ .run → r.x = -1 ∧ r.s = -1 ∧ r.v = -1)) hr ?_ (h v)
    unfold logRow
    by_cases hst : X.V.state u = .run
    · rw [if_pos hst]
      have := hc.s.run_link u hst
      exact ⟨by simp [Option.isSome_iff_ne_none, this], fun hn => absurd rfl hn⟩
    · rw [if_neg hst]
      exact ⟨by simp [hst], fun _ => ⟨rfl, rfl, rfl⟩⟩
  | _ => exact h

theorem RowForm.reach {OK : World → Prop} {W : World} (h : Reachable OK W) : RowForm W := by
  refine Reachable.induct (P := RowForm) ?_ ?_ ?_ ?_ ?_ ?_ ?_ ?_ h
  · intro cfg tmax rng v r hr
    simp [World.new] at hr
  · intro W a ph t soff hi hf hn _ _ hT
    exact hT
  · intro W W' a hi hf ha _ _ hT
    obtain ⟨s, e, nm, k, p, -, -, -, -, -, -, rfl⟩ := addLink_ok ha
    exact hT
  · intro W W' a hi ha hok _ hT
    obtain ⟨o, d, dep, pref, cache, lp, la, nm, -, -, -, -, -, -, -, -, rfl⟩ := addVehicle_ok ha
    intro v r hr
    by_cases e : v = W.nVeh
    · subst e
      have h1 : (W.addVehRes a o d dep pref cache lp la nm).V.log W.nVeh = [] := upd_same _ _ _
      rw [h1] at hr; cases hr
    · have h1 : (W.addVehRes a o d dep pref cache lp la nm).V.log v = W.V.log v := upd_ne _ _ e
      rw [h1] at hr; exact hT v r hr
  · intro W tm hi hf _ _ hT
    obtain ⟨ts, tta, fc, fr, la, hr⟩ := finalize_frame W tm
    rw [hr]
    exact hT
  · intro W W' _ _ _ hs hT
    obtain ⟨_, _, _, _, _, _, _, rfl, -⟩ := hs
    exact hT
  · intro W W' _ _ _ hs hT
    obtain ⟨_, _, _, _, _, _, _, _, _, _, _, _, _, _, _, _, _, _, _, rfl, -⟩ := hs
    exact hT
  · intro W W1 W' hi hf _ hok _ h1 hW hT
    subst hW
    exact step_prim hi hf (fun a X Y hc hp => RowForm.prim hc hp) (fun _ _ _ _ h => h) h1 hT

/-! ## Logged speeds -/

/-- Speeds, also the logged ones, are not negative. -/
structure SpeedI (W : World) : Prop where
  now : ∀ v, 0 ≤ W.V.v v
  row : ∀ v, ∀ r ∈ W.V.log v, r.state = .run → 0 ≤ r.v

theorem SpeedI.prim {X Y : World} {act : Act} (hc : Core X) (hok : PhysOK X) (hk : KInv X)
    (hn : (∃ v, act = .advance v) → KNext X) (hp : Prim act X Y) (h : SpeedI X) : SpeedI Y := by
  have hs := hp.shape hc.s
  clear hp
  cases hs with
  | @depart _ n v t cs l o hn' hq hcs hl hout hent hcum hlead =>
    have hl' : l < X.nLinks := ((hc.s.out_iff n l).mp hout).1
    refine ⟨fun u => ?_, h.row⟩
    show 0 ≤ upd X.V.v v (X.L.u l) u
    rw [upd_apply]; split
    · exact hok.u l hl'
    · exact h.now u
  | @move _ n v a b t o q nl fc tta hn' hinc hla hv hr hsig hout hfl hent hcd hca hu hlead hnl hq hfc htta =>
    have hal : a < X.nLinks := (hc.s.link_run v a hla).2.2
    have hbl : b < X.nLinks := hc.s.rnl_lt v b hr
    rw [carryOver_eq] at hq
    have q1 := carryPos_nonneg (o := o) hok hal hbl (hk.mr v)
    rw [← hq] at q1
    refine ⟨fun u => ?_, h.row⟩
    show 0 ≤ upd X.V.v v _ u
    rw [upd_apply]; split
    · exact hok.fl.nonneg (add_nonneg (h.now v) (hok.fl.nonneg (div_nonneg q1 hok.dt)))
    · exact h.now u
  | @advance _ v hs hlo hinc =>
    have hlate := hn ⟨v, rfl⟩
    obtain ⟨l, hl⟩ : ∃ l, X.V.link v = some l := Option.ne_none_iff_exists'.1 (hc.s.run_link v hs)
    refine ⟨fun u => ?_, h.row⟩
    show 0 ≤ upd X.V.v v _ u
    rw [upd_apply]; split
    · refine hok.fl.nonneg (div_nonneg (hok.fl.nonneg ?_) hok.dt)
      have := (hlate.nxt v l hl).1
      linarith
    · exact h.now u
  | @endTrip _ u l t log s c lt tta hl hv hf hcd hrun hliv hlt hlog htta =>
    refine ⟨h.now, fun v r hr => ?_⟩
    have hr : r ∈ log v := hr
    rw [hlog] at hr
    refine mem_log_upd (P := fun r => r.state = .run → 0 ≤ r.v) hr (fun hst => ?_) (h.row v)
    rcases (endRow_spec X u).2.1 with e | e <;> rw [e] at hst <;> cases hst
  | @record _ u log s c lt hliv hlt hlog =>
    refine ⟨h.now, fun v r hr => ?_⟩
    have hr : r ∈ log v := hr
    rw [hlog] at hr
    refine mem_log_upd (P := fun r => r.state = .run → 0 ≤ r.v) hr ?_ (h.row v)
    unfold logRow
    by_cases hst : X.V.state u = .run
    · rw [if_pos hst]; exact fun _ => h.now u
    · rw [if_neg hst]; exact fun hh => absurd hh hst
  | _ => exact ⟨h.now, h.row⟩

theorem SpeedI.reach {OK : World → Prop} (hO : ∀ W, OK W → PhysOK W) {W : World} (h : Reachable OK W) :
    SpeedI W := by
  have h' := h.strengthen (Q := KInv) (fun W h => KInv.reach hO h)
  clear h
  refine Reachable.induct (P := SpeedI) ?_ ?_ ?_ ?_ ?_ ?_ ?_ ?_ h'
  · intro cfg tmax rng
    exact ⟨fun v => le_rfl, fun v r hr => by simp [World.new] at hr⟩
  · intro W a ph t soff hi hf hn _ _ hT
    exact ⟨hT.now, hT.row⟩
  · intro W W' a hi hf ha _ _ hT
    obtain ⟨s, e, nm, k, p, -, -, -, -, -, -, rfl⟩ := addLink_ok ha
    exact ⟨hT.now, hT.row⟩
  · intro W W' a hi ha hok _ hT
    obtain ⟨o, d, dep, pref, cache, lp, la, nm, -, -, -, -, -, -, -, -, rfl⟩ := addVehicle_ok ha
    refine ⟨fun v => ?_, fun v r hr => ?_⟩
    · show 0 ≤ upd W.V.v W.nVeh 0 v
      rw [upd_apply]; split
      · exact le_rfl
      · exact hT.now v
    · by_cases e : v = W.nVeh
      · subst e
        have h1 : (W.addVehRes a o d dep pref cache lp la nm).V.log W.nVeh = [] := upd_same _ _ _
        rw [h1] at hr; cases hr
      · have h1 : (W.addVehRes a o d dep pref cache lp la nm).V.log v = W.V.log v := upd_ne _ _ e
        rw [h1] at hr; exact hT.row v r hr
  · intro W tm hi hf _ _ hT
    obtain ⟨ts, tta, fc, fr, la, hr⟩ := finalize_frame W tm
    rw [hr]
    exact ⟨hT.now, hT.row⟩
  · intro W W' _ _ _ hs hT
    obtain ⟨_, _, _, _, _, _, _, rfl, -⟩ := hs
    exact ⟨hT.now, hT.row⟩
  · intro W W' _ _ _ hs hT
    obtain ⟨_, _, _, _, _, _, _, _, _, _, _, _, _, _, _, _, _, _, _, rfl, -⟩ := hs
    exact ⟨hT.now, hT.row⟩
  · intro W W1 W' hi hf _ hok _ h1 hW hT
    subst hW
    obtain ⟨A, B, C, D, E, F, ph, rfl⟩ := step_phases (hi.core hf) h1
    have hp := hO _ hok.1
    obtain ⟨kA, kB, kC, kD, kE, kF⟩ := ph.kin (hi.core hf) hp hok.2
    let P : World → Prop := fun X => PhysOK X ∧ KInv X ∧ SpeedI X
    let Q : World → Prop := fun X => PhysOK X ∧ KInv X ∧ KNext X ∧ SpeedI X
    have step : ∀ a X Y, isEarly a → Core X → Prim a X Y → P X → P Y := by
      rintro a X Y ha hc hp ⟨p1, p2, p3⟩
      exact ⟨p1.static hp.static, p2.early ha hc p1 hp, p3.prim hc p1 p2 (by rintro ⟨v, rfl⟩; exact ha.elim) hp⟩
    have step' : ∀ a X Y, isLate a → Core X → Prim a X Y → Q X → Q Y := by
      rintro a X Y ha hc hp ⟨p1, p2, p3, p4⟩
      exact ⟨p1.static hp.static, p2.late ha hc hp p3, p3.late ha hc p1 hp, p4.prim hc p1 p2 (fun _ => p3) hp⟩
    have e1 := ph.s1.inv_core (P := P) (fun a X Y ha hc hp ih => step a X Y (isEarly_of (.inl ha)) hc hp ih)
      (hi.core hf) ⟨hp, hok.2, hT⟩
    have e2 := ph.s2.inv_core (P := P)
      (fun a X Y ha hc hp ih => step a X Y (isEarly_of (.inr (.inl ha))) hc hp ih) ph.c1 e1
    have e3 := ph.s3.inv_core (P := P)
      (fun a X Y ha hc hp ih => step a X Y (isEarly_of (.inr (.inr (.inl ha)))) hc hp ih) ph.c2 e2
    have e4 := ph.s4.inv_core (P := P)
      (fun a X Y ha hc hp ih => step a X Y (isEarly_of (.inr (.inr (.inr ha)))) hc hp ih) ph.c3 e3
    have e5 := ph.s5.inv_core (P := Q) (fun a X Y ha hc hp ih => step' a X Y (isUpdAny_late a ha) hc hp ih) ph.c4
      ⟨e4.1, e4.2.1, kD.2, e4.2.2⟩
    have e6 := ph.s6.inv_core (P := Q) (fun a X Y ha hc hp ih => step' a X Y (isRouting_late a ha) hc hp ih) ph.c5 e5
    exact ⟨e6.2.2.2.now, e6.2.2.2.row⟩

end UX
