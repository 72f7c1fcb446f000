import Verif.Proofs.Kin

/-! Invariants of positions: bounds (`KInv`), planned movement (`KNext`), movement done (`Moved`). -/

namespace UX
open World

structure KInv (W : World) : Prop where
  pos : ∀ v l, W.V.link v = some l →
    0 ≤ W.V.x v ∧ W.V.x v ≤ W.L.length l ∧ W.cfg.fl (W.V.x v) = W.V.x v
  mr : ∀ v, 0 ≤ W.V.moveRemain v

/-- After the car-following phase. -/
structure KNext (W : World) : Prop where
  nxt : ∀ v l, W.V.link v = some l → W.V.x v ≤ W.V.xNext v ∧ W.V.xNext v ≤ W.L.length l ∧
    W.cfg.fl (W.V.xNext v) = W.V.xNext v ∧
    W.V.xNext v ≤ W.cfg.fl (W.V.x v + W.cfg.fl (W.L.u l * W.cfg.deltat))

/-- The vehicle has moved in this step. -/
structure Moved (v : VehId) (W : World) : Prop where
  ok : ∀ l, W.V.link v = some l → W.V.xOld v ≤ W.V.x v ∧
    W.V.x v ≤ W.cfg.fl (W.V.xOld v + W.cfg.fl (W.L.u l * W.cfg.deltat)) ∧
    W.V.v v = W.cfg.fl (W.cfg.fl (W.V.x v - W.V.xOld v) / W.cfg.deltat)

namespace KInv

theorem congr {W W' : World} (h : KInv W) (h1 : W'.V.link = W.V.link) (h2 : W'.V.x = W.V.x)
    (h3 : W'.L.length = W.L.length) (h4 : W'.cfg = W.cfg)
    (h5 : W'.V.moveRemain = W.V.moveRemain) : KInv W' := by
  obtain ⟨a, b⟩ := h
  exact ⟨by rw [h1, h2, h3, h4]; exact a, by rw [h5]; exact b⟩

theorem early {act : Act} {W W' : World} (ha : isEarly act) (hc : Core W) (hok : PhysOK W)
    (hp : Prim act W W') (h : KInv W) : KInv W' := by
  have hs := hp.shape hc.s
  clear hp
  cases hs with
  | @depart _ n v t cs l o hn hq hcs hl hout hent hcum hlead =>
    have hl' : l < W.nLinks := ((hc.s.out_iff n l).mp hout).1
    have hlen := (hok.len l hl').1
    have hz := hok.fl.zero
    obtain ⟨a, b⟩ := h
    refine ⟨fun u k => ?_, b⟩
    simp only [upd_apply]
    grind
  | @move _ n v a b t o q nl fc tta hn hinc hla hv hr hsig hout hfl hent hcd hca hu hlead hnl hq hfc htta =>
    have hal : a < W.nLinks := (hc.s.link_run v a hla).2.2
    have hbl : b < W.nLinks := hc.s.rnl_lt v b hr
    rw [carryOver_eq] at hq
    have q1 := carryPos_nonneg (o := o) hok hal hbl (h.mr v)
    have q2 := carryPos_le_length (W := W) (v := v) (a := a) (b := b) (o := o)
    have q3 := carryPos_fl (v := v) (a := a) (o := o) hok hbl
    rw [← hq] at q1 q2 q3
    obtain ⟨c, d⟩ := h
    refine ⟨fun u k => ?_, fun u => ?_⟩
    · simp only [upd_apply]
      grind
    · simp only [upd_apply]
      grind
  | @endTrip _ v l t log s c lt tta hl hv hf hcd hrun hliv hlt hlog htta =>
    obtain ⟨c, d⟩ := h
    refine ⟨fun u k => ?_, d⟩
    simp only [upd_apply]
    grind
  | @carfollow _ v l mr xn hrun hl hx =>
    obtain ⟨c, d⟩ := h
    refine ⟨c, fun u => ?_⟩
    simp only [upd_apply]
    split
    · rename_i e; subst e
      rcases hx with ⟨h1, -, rfl⟩ | ⟨-, -, rfl⟩
      · exact hok.fl.nonneg (by linarith)
      · exact d u
    · exact d u
  | linkTick => exact h.congr rfl rfl rfl rfl rfl
  | nodeTick => exact h.congr rfl rfl rfl rfl rfl
  | clearInc => exact h.congr rfl rfl rfl rfl rfl
  | routing => exact h.congr rfl rfl rfl rfl rfl
  | _ => exact ha.elim

theorem late {act : Act} {W W' : World} (ha : isLate act) (hc : Core W)
    (hp : Prim act W W') (h : KInv W) (h2 : KNext W) : KInv W' := by
  have hs := hp.shape hc.s
  clear hp
  cases hs with
  | @endTrip _ v l t log s c lt tta hl hv hf hcd hrun hliv hlt hlog htta =>
    obtain ⟨c, d⟩ := h
    refine ⟨fun u k => ?_, d⟩
    simp only [upd_apply]
    grind
  | @advance _ v hs hlo hinc =>
    obtain ⟨c, d⟩ := h
    obtain ⟨e⟩ := h2
    refine ⟨fun u k hk => ?_, d⟩
    have h1 := c u k hk
    have h2 := e u k hk
    simp only [upd_apply]
    split
    · rename_i e; subst e
      exact ⟨le_trans h1.1 h2.1, h2.2.1, h2.2.2.1⟩
    · exact h1
  | @depart _ n v t cs l o hn hq hcs hl hout hent hcum hlead => exact ha.elim
  | @move _ n v a b t o q nl fc tta hn hinc hla hv hr hsig hout hfl hent hcd hca hu hlead hnl hq hfc htta =>
    exact ha.elim
  | @carfollow _ v l mr xn hrun hl hx => exact ha.elim
  | _ => exact h.congr rfl rfl rfl rfl rfl

end KInv

namespace KNext

theorem congr {W W' : World} (h : KNext W) (h1 : W'.V.link = W.V.link) (h2 : W'.V.x = W.V.x)
    (h3 : W'.L.length = W.L.length) (h4 : W'.cfg = W.cfg) (h5 : W'.V.xNext = W.V.xNext)
    (h6 : W'.L.u = W.L.u) : KNext W' := by
  obtain ⟨a⟩ := h
  exact ⟨by rw [h1, h2, h3, h4, h5, h6]; exact a⟩

theorem late {act : Act} {W W' : World} (ha : isLate act) (hc : Core W) (hok : PhysOK W)
    (hp : Prim act W W') (h : KNext W) : KNext W' := by
  have hs := hp.shape hc.s
  clear hp
  cases hs with
  | @endTrip _ v l t log s c lt tta hl hv hf hcd hrun hliv hlt hlog htta =>
    obtain ⟨c⟩ := h
    refine ⟨fun u k => ?_⟩
    simp only [upd_apply]
    grind
  | @advance _ v hs hlo hinc =>
    obtain ⟨e⟩ := h
    refine ⟨fun u k hk => ?_⟩
    have h2 := e u k hk
    have hk' : k < W.nLinks := (hc.s.link_run u k hk).2.2
    simp only [upd_apply]
    split
    · rename_i e; subst e
      refine ⟨le_rfl, h2.2.1, h2.2.2.1, hok.fl.le_fl h2.2.2.1 ?_⟩
      have := hok.fl.nonneg (mul_nonneg (hok.u k hk') hok.dt)
      linarith
    · exact h2
  | @depart _ n v t cs l o hn hq hcs hl hout hent hcum hlead => exact ha.elim
  | @move _ n v a b t o q nl fc tta hn hinc hla hv hr hsig hout hfl hent hcd hca hu hlead hnl hq hfc htta =>
    exact ha.elim
  | @carfollow _ v l mr xn hrun hl hx => exact ha.elim
  | _ => exact h.congr rfl rfl rfl rfl rfl rfl

/-- The car-following phase. -/
theorem of_carfollow {W W' : World} (hc : Core W) (hok : PhysOK W) (h : KInv W)
    (hs : W.running.foldlM carfollow W = .ok W') : KNext W' := by
  obtain ⟨mr, xn, rfl, h1, -⟩ := carfollow_all hc hs
  refine ⟨fun v l hl => ?_⟩
  have hl' : W.V.link v = some l := hl
  have hk : l < W.nLinks := (hc.s.link_run v l hl').2.2
  obtain ⟨hx0, hxl, hxf⟩ := h.pos v l hl'
  obtain ⟨hlen0, hlenf⟩ := hok.len l hk
  have hud := hok.fl.nonneg (mul_nonneg (hok.u l hk) hok.dt)
  have hx0' : W.V.x v ≤ W.cfg.fl (W.V.x v + W.cfg.fl (W.L.u l * W.cfg.deltat)) :=
    hok.fl.le_fl hxf (by linarith)
  have hfp : W.V.x v ≤ W.followPos v l ∧ W.cfg.fl (W.followPos v l) = W.followPos v l ∧
      W.followPos v l ≤ W.cfg.fl (W.V.x v + W.cfg.fl (W.L.u l * W.cfg.deltat)) := by
    have hi := hok.fl.idem
    rw [followPos_eq]
    cases W.V.leader v with
    | none => exact ⟨hx0', hi _, le_rfl⟩
    | some w =>
      refine ⟨le_min (le_max_left _ _) hx0', ?_, min_le_right _ _⟩
      have : ∀ a b, W.cfg.fl a = a → W.cfg.fl b = b → W.cfg.fl (min a b) = min a b := by
        intro a b ha hb; rcases min_choice a b with h | h <;> rw [h] <;> assumption
      refine this _ _ ?_ (hi _)
      rcases max_choice (W.V.x v) (W.cfg.fl (W.V.x w - W.gap l)) with h | h <;> rw [h]
      · exact hxf
      · exact hi _
  dsimp only
  rw [(h1 v l hl').1]
  unfold nextPos
  split
  · rename_i hlt
    exact ⟨hxl, le_rfl, hlenf, le_trans (le_of_lt hlt) hfp.2.2⟩
  · rename_i hlt
    exact ⟨hfp.1, not_lt.mp hlt, hfp.2⟩

end KNext

namespace Moved

theorem congr {v : VehId} {W W' : World} (h : Moved v W) (h1 : W'.V.link v = W.V.link v)
    (h2 : W'.V.x v = W.V.x v) (h3 : W'.V.xOld v = W.V.xOld v) (h4 : W'.cfg = W.cfg)
    (h5 : W'.V.v v = W.V.v v) (h6 : W'.L.u = W.L.u) : Moved v W' := by
  obtain ⟨a⟩ := h
  exact ⟨by rw [h1, h2, h3, h4, h5, h6]; exact a⟩

/-- Everything but `advance v` keeps `Moved v` in the second half of a step. -/
theorem late {v : VehId} {act : Act} {W W' : World} (ha : isLate act) (hv : act ≠ .advance v)
    (hc : Core W) (hp : Prim act W W') (h : Moved v W) : Moved v W' := by
  have hs := hp.shape hc.s
  clear hp
  cases hs with
  | @endTrip _ u l t log s c lt tta hl hv hf hcd hrun hliv hlt hlog htta =>
    by_cases huv : v = u
    · subst huv; exact ⟨fun l hl => by simp at hl⟩
    · exact h.congr (upd_ne _ _ huv) (upd_ne _ _ huv) rfl rfl rfl rfl
  | @advance _ u hs hlo hinc =>
    have huv : v ≠ u := by rintro rfl; exact hv rfl
    exact h.congr rfl (upd_ne _ _ huv) (upd_ne _ _ huv) rfl (upd_ne _ _ huv) rfl
  | @depart _ n v t cs l o hn hq hcs hl hout hent hcum hlead => exact ha.elim
  | @move _ n v a b t o q nl fc tta hn hinc hla hv hr hsig hout hfl hent hcd hca hu hlead hnl hq hfc htta =>
    exact ha.elim
  | @carfollow _ v l mr xn hrun hl hx => exact ha.elim
  | _ => exact h.congr rfl rfl rfl rfl rfl rfl

theorem of_advance {v : VehId} {W : World} (h : KNext W) : Moved v (W.advance v) := by
  refine ⟨fun l hl => ?_⟩
  have := h.nxt v l hl
  simp only [advance, upd_same]
  exact ⟨this.1, this.2.2.2, rfl⟩

end Moved

theorem isAft_late {v : VehId} : ∀ a, isAft v a → isLate a ∧ ∀ u, a ≠ .advance u := by
  intro a ha
  cases a <;> simp_all [isAft, isLate]

/-- After the update phase every vehicle on a link has moved. -/
theorem updates_moved {W W' : World} (hc : Core W) (hi : ∀ n, W.N.incoming n = []) (hok : PhysOK W)
    (hk : KInv W) (hn : KNext W) (h : W.living.foldlM vehUpdateLiving W = .ok W') :
    KInv W' ∧ KNext W' ∧ ∀ v, Moved v W' := by
  have hlr : ∀ {W : World}, Core W → ∀ v, v ∉ W.living → W.V.link v = none := by
    intro W hc v hv
    cases hl : W.V.link v with
    | none => rfl
    | some l =>
      have hr := (hc.s.link_run v l hl).1
      refine absurd ((hc.s.living_iff v).mpr ⟨?_, ?_⟩) hv
      · by_contra hge
        have := hc.s.fresh v (not_lt.mp hge); rw [hr] at this; cases this
      · rw [hr]; decide
  have key := updates_inv (P := fun pre W1 => PhysOK W1 ∧ KInv W1 ∧ KNext W1 ∧
      (∀ v ∈ pre, Moved v W1) ∧ (∀ v, v ∉ W.living → W1.V.link v = none)) hc hi ?_
    ⟨hok, hk, hn, by simp, fun v hv => hlr hc v hv⟩ h
  · obtain ⟨⟨h1, h2, h3, h4, h5⟩, -⟩ := key
    refine ⟨h2, h3, fun v => ?_⟩
    by_cases hv : v ∈ W.living
    · exact h4 v hv
    · exact ⟨fun l hl => by rw [h5 v hv] at hl; cases hl⟩
  · intro pre v W1 W2 hvp hvW hv1 hc1 hinc hu ⟨k1, k2, k3, k4, k5⟩
    have hst := hu.star.static
    have hboth : ∀ {A : Act → Prop} {X Y : World}, (∀ a, A a → isLate a) → PStar A X Y → Core X →
        PhysOK X → KInv X → KNext X → KInv Y ∧ KNext Y := by
      intro A X Y hA hXY hcX hoX hkX hnX
      have := hXY.inv_core (P := fun Z => PhysOK Z ∧ KInv Z ∧ KNext Z)
        (fun a Z Z' ha hcZ hp hz => ⟨hz.1.static hp.static, hz.2.1.late (hA a ha) hcZ hp hz.2.2,
          hz.2.2.late (hA a ha) hcZ hz.1 hp⟩) hcX ⟨hoX, hkX, hnX⟩
      exact this.2
    obtain ⟨k2', k3'⟩ := hboth (fun a ha => isUpdAny_late a ⟨v, ha⟩) hu.star hc1 k1 k2 k3
    have hlink : ∀ u, u ∉ W.living → W2.V.link u = none := by
      intro u hu'
      have huv : u ≠ v := fun e => hu' (e ▸ hvW)
      have := hu.star.inv_core (P := fun Z => Z.V.link u = none) (fun a Z Z' ha hcZ hp hz => by
        have hs := hp.shape hcZ.s
        cases hs with
        | @endTrip _ u' l t log s c lt tta hl hv hf hcd hrun hliv hlt hlog htta =>
          dsimp only; rw [upd_apply]; split <;> [rfl; exact hz]
        | @depart _ n v t cs l o hn hq hcs hl hout hent hcum hlead => exact ha.elim
        | @move _ n v a b t o q nl fc tta hn hinc hla hv hr hsig hout hfl hent hcd hca hu hlead hnl hq hfc htta =>
          exact ha.elim
        | _ => exact hz) hc1 (k5 u hu')
      exact this
    refine ⟨k1.static hst, k2', k3', ?_, hlink⟩
    intro u hup
    by_cases huv : u = v
    · subst huv
      obtain ⟨X, rfl, p1, p2, hX⟩ := hu
      have hcX := (hc1.prim p1).prim p2
      have hsX : PStar (isUpd u) W1 ((W1.recordLog u false).startWait u) :=
        (PStar.one (A := isUpd u) (a := .record u) rfl p1).tail (a := .startWait u) rfl p2
      rcases hX with ⟨hs, rfl | h⟩ | ⟨hs, p3, h⟩
      · refine ⟨fun l hl => absurd (hcX.s.link_run u l hl).1 hs⟩
      · have hs' := h.shape hcX.s
        have hcX' := hcX.prim h
        refine ⟨fun l hl => absurd (hcX'.s.link_run u l hl).1 ?_⟩
        cases hs'
        exact hs
      · have hkX := (hboth (fun a ha => isUpdAny_late a ⟨u, ha⟩) hsX hc1 k1 k2 k3).2
        exact h.inv_core (P := Moved u) (fun a Z Z' ha hcZ hp hz =>
          hz.late (isAft_late a ha).1 ((isAft_late a ha).2 u) hcZ hp) (hcX.prim p3) (Moved.of_advance hkX)
    · have hup' : u ∈ pre := by simpa [huv] using hup
      refine hu.star.inv_core (P := Moved u) (fun a Z Z' ha hcZ hp hz =>
          hz.late (isUpdAny_late a ⟨v, ha⟩) ?_ hcZ hp) hc1 (k4 u hup')
      rintro rfl
      exact huv ha

theorem PStar.kinv_early {A : Act → Prop} {W W' : World} (hA : ∀ a, A a → isEarly a)
    (h : PStar A W W') (hc : Core W) (hok : PhysOK W) (hk : KInv W) : KInv W' :=
  (h.inv_core (P := fun Z => PhysOK Z ∧ KInv Z)
    (fun a Z Z' ha hcZ hp hz => ⟨hz.1.static hp.static, hz.2.early (hA a ha) hcZ hz.1 hp⟩) hc ⟨hok, hk⟩).2

/-- Positions through the phases of a step. -/
theorem Phases.kin {W A B C D E F : World} (hp : Phases W A B C D E F) (hc : Core W) (hok : PhysOK W)
    (hk : KInv W) : KInv A ∧ KInv B ∧ KInv C ∧ (KInv D ∧ KNext D) ∧ (KInv E ∧ KNext E ∧ ∀ v, Moved v E) ∧
      (KInv F ∧ KNext F ∧ ∀ v, Moved v F) := by
  have oA := hok.static hp.s1.static
  have oB := oA.static hp.s2.static
  have oC := oB.static hp.s3.static
  have oD := oC.static hp.s4.static
  have oE := oD.static hp.s5.static
  have kA := hp.s1.kinv_early (fun a ha => isEarly_of (.inl ha)) hc hok hk
  have kB := hp.s2.kinv_early (fun a ha => isEarly_of (.inr (.inl ha))) hp.c1 oA kA
  have kC := hp.s3.kinv_early (fun a ha => isEarly_of (.inr (.inr (.inl ha)))) hp.c2 oB kB
  have kD := hp.s4.kinv_early (fun a ha => isEarly_of (.inr (.inr (.inr ha)))) hp.c3 oC kC
  have nD := KNext.of_carfollow hp.c3 oC kC hp.p4
  have kE := updates_moved hp.c4 hp.i4 oD kD nD hp.p5
  refine ⟨kA, kB, kC, ⟨kD, nD⟩, kE, ?_⟩
  have := hp.s6.inv_core (P := fun Z => PhysOK Z ∧ KInv Z ∧ KNext Z ∧ ∀ v, Moved v Z)
    (fun a Z Z' ha hcZ hp hz => ⟨hz.1.static hp.static, hz.2.1.late (isRouting_late a ha) hcZ hp hz.2.2.1,
      hz.2.2.1.late (isRouting_late a ha) hcZ hz.1 hp, fun v => (hz.2.2.2 v).late (isRouting_late a ha)
        (by rintro rfl; exact ha) hcZ hp⟩) hp.c5 ⟨oE, kE⟩
  exact this.2

theorem step_kin {W W1 : World} (hi : Inv W) (hf : W.finalized = true) (hok : PhysOK W) (hk : KInv W)
    (h : W.step = .ok W1) : ∃ W6, Core W6 ∧ Static W W6 ∧ W1 = { W6 with time := W6.now } ∧
      KInv W6 ∧ KNext W6 ∧ ∀ v, Moved v W6 := by
  obtain ⟨A, B, C, D, E, F, hp, rfl⟩ := step_phases (hi.core hf) h
  refine ⟨F, hp.c6, ?_, rfl, (hp.kin (hi.core hf) hok hk).2.2.2.2.2⟩
  exact ((((hp.s1.static.trans hp.s2.static).trans hp.s3.static).trans hp.s4.static).trans
      hp.s5.static).trans hp.s6.static

theorem KInv.reach {OK : World → Prop} (hO : ∀ W, OK W → PhysOK W) {W : World} (h : Reachable OK W) :
    KInv W := by
  refine Reachable.induct (P := KInv) ?_ ?_ ?_ ?_ ?_ ?_ ?_ ?_ h
  · intro cfg tmax rng
    constructor <;> simp [World.new]
  · intro W a ph t soff hi hf hn _ _ hT
    exact hT.congr rfl rfl rfl rfl rfl
  · intro W W' a hi hf ha _ _ hT
    obtain ⟨s, e, nm, k, p, -, -, -, -, -, -, rfl⟩ := addLink_ok ha
    refine ⟨fun v l hl => ?_, hT.mr⟩
    have := (hi.s.link_run v l hl).1
    rw [hi.s.unfinal hf v] at this
    cases this
  · intro W W' a hi ha _ _ hT
    obtain ⟨o, d, dep, pref, cache, lp, la, nm, -, -, -, -, -, -, -, -, rfl⟩ := addVehicle_ok ha
    obtain ⟨h1, h2⟩ := hT
    refine ⟨fun v l => ?_, fun v => ?_⟩
    · simp only [addVehRes, upd_apply]
      grind
    · simp only [addVehRes, upd_apply]
      grind
  · intro W tm hi hf _ _ hT
    obtain ⟨ts, tta, fc, fr, la, hr⟩ := finalize_frame W tm
    rw [hr]
    exact hT.congr rfl rfl rfl rfl rfl
  · intro W W' _ _ _ hs hT
    obtain ⟨_, _, _, _, _, _, _, rfl, -⟩ := hs
    exact hT.congr rfl rfl rfl rfl rfl
  · intro W W' _ _ _ hs hT
    obtain ⟨_, _, _, _, _, _, _, _, _, _, _, _, _, _, _, _, _, _, _, rfl, -⟩ := hs
    exact hT.congr rfl rfl rfl rfl rfl
  · intro W W1 W' hi hf _ hok _ h1 hW hT
    subst hW
    obtain ⟨W6, -, -, rfl, hk, -⟩ := step_kin hi hf (hO _ hok) hT h1
    exact hk.congr rfl rfl rfl rfl rfl

end UX
