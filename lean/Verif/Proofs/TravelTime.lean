import Verif.Proofs.KinInv

/-! Times spent on links and distances travelled (exact arithmetic). -/

namespace UX
open World

/-- Exact arithmetic, meaningful parameters, free-flow speeds `u0 > 0` that never change. -/
structure ExactOK (u0 : LinkId → ℚ) (W : World) : Prop where
  phys : PhysOK W
  exact : W.cfg.fl = id
  u : ∀ l, l < W.nLinks → W.L.u l = u0 l ∧ 0 < u0 l

theorem ExactOK.static {u0} {W W' : World} (h : ExactOK u0 W) (hs : Static W W') : ExactOK u0 W' :=
  ⟨h.phys.static hs, by rw [hs.cfg]; exact h.exact, by rw [hs.nLinks, hs.u]; exact h.u⟩

theorem NotFaster.congr {len len' u : LinkId → ℚ} {dt : ℚ} {tr : List Event} (h : len' = len)
    (hn : NotFaster len u dt tr) : NotFaster len' u dt tr := h ▸ hn

theorem mem_sliceFrom {xs : List ℚ} {i : ℤ} {q y : ℚ} (h : y ∈ sliceFrom xs i q) : y ∈ xs ∨ y = q := by
  unfold sliceFrom at h
  simp only [List.mem_append] at h
  rcases h with h | h
  · exact .inl (List.mem_of_mem_take h)
  · exact .inr (List.eq_of_mem_replicate h)

/-- Time spent on links, `b = 0` in the first half of a step, `b = 1` in the second. -/
structure TT (u0 : LinkId → ℚ) (b : ℕ) (W : World) : Prop where
  ent : ∀ v l, W.V.link v = some l → ∃ T0, lastTake v W.trace = some (T0, l) ∧ T0 ≤ W.T ∧
    W.V.linkArrTime v = T0 * W.cfg.deltat ∧
    W.V.x v ≤ u0 l * (((W.T : ℚ) - T0 + 1 + b) * W.cfg.deltat) ∧
    (b = 1 → W.V.xNext v ≤ u0 l * (((W.T : ℚ) - T0 + 2) * W.cfg.deltat))
  mr : ∀ v l, W.V.link v = some l → W.V.moveRemain v ≤ u0 l * W.cfg.deltat
  mr0 : ∀ v, W.V.state v = .home ∨ W.V.state v = .wait → W.V.moveRemain v = 0
  flag : ∀ v l, W.V.link v = some l → W.V.flagEnd v = true → W.V.x v = W.L.length l
  hist : NotFaster W.L.length u0 W.cfg.deltat W.trace
  unf : W.finalized = false → W.trace = []
  act : W.finalized = true → ∀ l, l < W.nLinks → ∀ q ∈ W.L.ttActual l,
    W.L.length l / u0 l - W.cfg.deltat ≤ q

namespace TT

theorem congr {u0 b} {W W' : World} (h : TT u0 b W) (h1 : W'.V.link = W.V.link) (h2 : W'.V.x = W.V.x)
    (h3 : W'.L.length = W.L.length) (h4 : W'.cfg = W.cfg) (h5 : W'.V.moveRemain = W.V.moveRemain)
    (h6 : W'.trace = W.trace) (h7 : W'.T = W.T) (h8 : W'.V.linkArrTime = W.V.linkArrTime)
    (h9 : W'.V.xNext = W.V.xNext) (h10 : W'.V.state = W.V.state) (h11 : W'.V.flagEnd = W.V.flagEnd)
    (h12 : W'.finalized = W.finalized) (h13 : W'.L.ttActual = W.L.ttActual)
    (h14 : W'.nLinks = W.nLinks) : TT u0 b W' := by
  obtain ⟨a1, a2, a3, a4, a5, a6, a7⟩ := h
  constructor
  · rw [h1, h2, h4, h6, h7, h8, h9]; exact a1
  · rw [h1, h4, h5]; exact a2
  · rw [h10, h5]; exact a3
  · rw [h1, h11, h2, h3]; exact a4
  · rw [h3, h4, h6]; exact a5
  · rw [h12, h6]; exact a6
  · rw [h12, h14, h13, h3, h4]; exact a7

theorem lastTake_other {v : VehId} {e : Event} {tr : List Event} (h : takesAt v e = none) :
    lastTake v (e :: tr) = lastTake v tr := by
  unfold lastTake; rw [List.findSome?_cons, h]

/-- End of a trip, in either half. -/
theorem endTrip {u0 b} {W W' : World} {v l} (hb : b ≤ 1) (hc : Core W) (hok : ExactOK u0 W)
    (hp : Prim (.endTrip v l) W W') (h : TT u0 b W) : TT u0 b W' := by
  have hs := hp.shape hc.s
  clear hp
  have hfl : ∀ q, W.fl q = q := fun q => by unfold World.fl; rw [hok.exact]; rfl
  cases hs with
  | @endTrip _ v l t log s c lt tta hl hv hf hcd hrun hliv hlt hlog htta =>
    have hlk : l < W.nLinks := (hc.s.link_run v l hl).2.2
    obtain ⟨hul, hu0⟩ := hok.u l hlk
    have hx := h.flag v l hl hf
    obtain ⟨T0, e1, e2, e3, e4, -⟩ := h.ent v l hl
    have hbound : W.L.length l / u0 l - W.cfg.deltat ≤ ((W.T : ℚ) + 1 - T0) * W.cfg.deltat := by
      have hd := hok.phys.dt
      have hbq : (b : ℚ) ≤ 1 := by exact_mod_cast hb
      have h1 : W.L.length l ≤ u0 l * (((W.T : ℚ) - T0 + 2) * W.cfg.deltat) := by
        rw [← hx]
        refine le_trans e4 (mul_le_mul_of_nonneg_left (mul_le_mul_of_nonneg_right ?_ hd) hu0.le)
        linarith
      have h2 : W.L.length l / u0 l ≤ ((W.T : ℚ) - T0 + 2) * W.cfg.deltat := by
        rw [div_le_iff₀ hu0, mul_comm]; exact h1
      linarith
    constructor
    · intro u k hu
      dsimp only at hu ⊢
      have huv : u ≠ v := by rintro rfl; rw [upd_same] at hu; cases hu
      rw [upd_ne _ _ huv] at hu ⊢
      obtain ⟨T1, f1, f2⟩ := h.ent u k hu
      exact ⟨T1, by rw [lastTake_other rfl]; exact f1, f2⟩
    · intro u k hu
      dsimp only at hu ⊢
      have huv : u ≠ v := by rintro rfl; rw [upd_same] at hu; cases hu
      rw [upd_ne _ _ huv] at hu
      exact h.mr u k hu
    · intro u hu
      dsimp only at hu ⊢
      refine h.mr0 u ?_
      rw [upd_apply] at hu
      split at hu
      · split at hu <;> simp at hu
      · exact hu
    · intro u k hu hfu
      dsimp only at hu hfu ⊢
      have huv : u ≠ v := by rintro rfl; rw [upd_same] at hu; cases hu
      rw [upd_ne _ _ huv] at hu ⊢
      exact h.flag u k hu hfu
    · exact ⟨h.hist, T0, e1, e2, hbound⟩
    · intro hfin
      have : W.finalized = false := hfin
      rw [hc.fin] at this; cases this
    · intro hfin k hk q hq
      dsimp only at hq ⊢
      rw [htta, upd_apply] at hq
      split at hq
      · rename_i e; subst e
        rcases mem_sliceFrom hq with hq | rfl
        · exact h.act hfin k hk q hq
        · rw [hfl, hfl, e3]
          have : World.dt W = W.cfg.deltat := rfl
          rw [this]
          push_cast
          linarith
      · exact h.act hfin k hk q hq

theorem early {u0} {act : Act} {W W' : World} (ha : isEarly act) (hc : Core W) (hok : ExactOK u0 W)
    (hk : KInv W) (hp : Prim act W W') (h : TT u0 0 W) : TT u0 0 W' := by
  by_cases hE : ∃ v l, act = .endTrip v l
  · obtain ⟨v, l, rfl⟩ := hE
    exact h.endTrip (Nat.zero_le _) hc hok hp
  have hs := hp.shape hc.s
  clear hp
  have hfl : ∀ q, W.fl q = q := fun q => by unfold World.fl; rw [hok.exact]; rfl
  have hd := hok.phys.dt
  have hnow : W.now = W.T * W.cfg.deltat := by unfold World.now; rw [hfl]; rfl
  cases hs with
  | @depart _ n v t cs l o hn hq hcs hl hout hent hcum hlead =>
    have hl' : l < W.nLinks := ((hc.s.out_iff n l).mp hout).1
    have hw : W.V.state v = .wait := (hc.s.genq_mem n v (by simp [hq])).1
    obtain ⟨hul, hu0⟩ := hok.u l hl'
    constructor
    · intro u k hu
      dsimp only at hu ⊢
      by_cases huv : u = v
      · subst huv
        simp only [upd_same] at hu ⊢
        obtain rfl : l = k := by simpa using hu
        refine ⟨W.T, by simp [lastTake, takesAt], le_rfl, hnow, ?_, by simp⟩
        have : 0 ≤ u0 l * W.cfg.deltat := mul_nonneg hu0.le hd
        push_cast
        linarith
      · simp only [upd_ne _ _ huv] at hu ⊢
        rw [lastTake_other (by simp [takesAt, Ne.symm huv])]
        exact h.ent u k hu
    · intro u k hu
      dsimp only at hu ⊢
      by_cases huv : u = v
      · subst huv
        rw [upd_same] at hu
        obtain rfl : l = k := by simpa using hu
        rw [h.mr0 u (.inr hw)]
        exact mul_nonneg hu0.le hd
      · rw [upd_ne _ _ huv] at hu
        exact h.mr u k hu
    · intro u hu
      dsimp only at hu ⊢
      refine h.mr0 u ?_
      rw [upd_apply] at hu
      split at hu
      · simp at hu
      · exact hu
    · intro u k hu hfu
      dsimp only at hu hfu ⊢
      by_cases huv : u = v
      · subst huv
        rw [hc.f.young u (.inr hw)] at hfu; cases hfu
      · rw [upd_ne _ _ huv] at hu ⊢
        exact h.flag u k hu hfu
    · exact ⟨h.hist, trivial⟩
    · intro hfin
      have : W.finalized = false := hfin
      rw [hc.fin] at this; cases this
    · exact h.act
  | @move _ n v a b t o q nl fc tta hn hinc hla hv hr hsig hout hfl' hent hcd hca hu hlead hnl hq hfc htta =>
    have hal : a < W.nLinks := (hc.s.link_run v a hla).2.2
    have hbl : b < W.nLinks := hc.s.rnl_lt v b hr
    obtain ⟨hua, hua0⟩ := hok.u a hal
    obtain ⟨hub, hub0⟩ := hok.u b hbl
    have hx : W.V.x v = W.L.length a := (hc.s.inc_run n v a hinc hla).2.1
    obtain ⟨T0, e1, e2, e3, e4, -⟩ := h.ent v a hla
    have hbound : W.L.length a / u0 a - W.cfg.deltat ≤ ((W.T : ℚ) - T0) * W.cfg.deltat := by
      have h2 : W.L.length a / u0 a ≤ ((W.T : ℚ) - T0 + 1) * W.cfg.deltat := by
        rw [div_le_iff₀ hua0, mul_comm, ← hx]
        refine le_trans e4 (le_of_eq ?_)
        push_cast; ring
      linarith
    have hq1 : q ≤ u0 b * W.cfg.deltat := by
      rw [hq, carryOver_eq]
      refine le_trans carryPos_le ?_
      rw [hfl, hfl, hua, hub, div_le_iff₀ hua0]
      have := mul_le_mul_of_nonneg_right (h.mr v a hla) hub0.le
      linarith
    have hnf : W.V.flagEnd v = false := by
      cases hff : W.V.flagEnd v with
      | false => rfl
      | true =>
        obtain ⟨-, h2⟩ := hc.f.flag v a hla hff
        rcases h2 with ⟨-, -, -, h2⟩ | ⟨-, -, -, h2, -⟩
        · exact absurd hinc (h2 n)
        · rw [h2] at hr; cases hr
    constructor
    · intro u k hu
      dsimp only at hu ⊢
      by_cases huv : u = v
      · subst huv
        simp only [upd_same] at hu ⊢
        obtain rfl : b = k := by simpa using hu
        refine ⟨W.T, by simp [lastTake, takesAt], le_rfl, hnow, ?_, by simp⟩
        push_cast
        linarith
      · simp only [upd_ne _ _ huv] at hu ⊢
        rw [lastTake_other (by simp [takesAt, Ne.symm huv])]
        exact h.ent u k hu
    · intro u k hu
      dsimp only at hu ⊢
      by_cases huv : u = v
      · subst huv
        rw [upd_same] at hu ⊢
        obtain rfl : b = k := by simpa using hu
        exact mul_nonneg hub0.le hd
      · rw [upd_ne _ _ huv] at hu ⊢
        exact h.mr u k hu
    · intro u hu
      dsimp only at hu ⊢
      rw [upd_apply]
      split
      · rfl
      · exact h.mr0 u hu
    · intro u k hu hfu
      dsimp only at hu hfu ⊢
      by_cases huv : u = v
      · subst huv
        rw [hnf] at hfu; cases hfu
      · rw [upd_ne _ _ huv] at hu ⊢
        exact h.flag u k hu hfu
    · exact ⟨h.hist, T0, e1, e2, hbound⟩
    · intro hfin
      have : W.finalized = false := hfin
      rw [hc.fin] at this; cases this
    · intro hfin k hk q' hq'
      dsimp only at hq' ⊢
      rw [htta, upd_apply] at hq'
      split at hq'
      · rename_i e; subst e
        rcases mem_sliceFrom hq' with hq' | rfl
        · exact h.act hfin k hk q' hq'
        · rw [hfl, hnow, e3]
          linarith
      · exact h.act hfin k hk q' hq'
  | @carfollow _ v l mr xn hrun hl hx =>
    have hlk : l < W.nLinks := (hc.s.link_run v l hl).2.2
    obtain ⟨hul, hu0⟩ := hok.u l hlk
    obtain ⟨a1, a2, a3, a4, a5, a6, a7⟩ := h
    constructor
    · intro u k hu
      obtain ⟨T0, f1, f2, f3, f4, f5⟩ := a1 u k hu
      exact ⟨T0, f1, f2, f3, f4, by simp⟩
    · intro u k hu
      dsimp only at hu ⊢
      by_cases huv : u = v
      · subst huv
        rw [upd_same]
        obtain rfl : l = k := by rw [hl] at hu; simpa using hu
        rcases hx with ⟨h1, -, rfl⟩ | ⟨-, -, rfl⟩
        · rw [hfl]
          have h3 : W.followPos u l ≤ W.V.x u + u0 l * W.cfg.deltat := by
            have h4 : W.cfg.fl (W.V.x u + W.cfg.fl (W.L.u l * W.cfg.deltat)) =
              W.V.x u + u0 l * W.cfg.deltat := by rw [hok.exact, hul]; rfl
            rw [followPos_eq, ← h4]
            split
            · exact min_le_right _ _
            · exact le_rfl
          have h4 := (hk.pos u l hl).2.1
          linarith
        · exact a2 u l hl
      · rw [upd_ne _ _ huv]
        exact a2 u k hu
    · intro u hu
      dsimp only at hu ⊢
      by_cases huv : u = v
      · subst huv
        have := (hc.s.link_run u l hl).1
        rw [this] at hu; simp at hu
      · rw [upd_ne _ _ huv]; exact a3 u hu
    · exact a4
    · exact a5
    · exact a6
    · exact a7
  | linkTick => exact h.congr rfl rfl rfl rfl rfl rfl rfl rfl rfl rfl rfl rfl rfl rfl
  | nodeTick => exact h.congr rfl rfl rfl rfl rfl rfl rfl rfl rfl rfl rfl rfl rfl rfl
  | clearInc => exact h.congr rfl rfl rfl rfl rfl rfl rfl rfl rfl rfl rfl rfl rfl rfl
  | routing => exact h.congr rfl rfl rfl rfl rfl rfl rfl rfl rfl rfl rfl rfl rfl rfl
  | endTrip => exact absurd ⟨_, _, rfl⟩ hE
  | _ => exact ha.elim

theorem late {u0} {act : Act} {W W' : World} (ha : isLate act) (hc : Core W) (hok : ExactOK u0 W)
    (hn : KNext W) (hp : Prim act W W') (h : TT u0 1 W) : TT u0 1 W' := by
  by_cases hE : ∃ v l, act = .endTrip v l
  · obtain ⟨v, l, rfl⟩ := hE
    exact h.endTrip le_rfl hc hok hp
  have hs := hp.shape hc.s
  clear hp
  cases hs with
  | @advance _ v hs hlo hinc =>
    obtain ⟨a1, a2, a3, a4, a5, a6, a7⟩ := h
    refine ⟨fun u k hu => ?_, a2, a3, fun u k hu hfu => ?_, a5, a6, a7⟩
    · obtain ⟨T0, f1, f2, f3, f4, f5⟩ := a1 u k hu
      refine ⟨T0, f1, f2, f3, ?_, f5⟩
      dsimp only
      rw [upd_apply]
      split
      · rename_i e; subst e
        refine le_trans (f5 rfl) (le_of_eq ?_)
        push_cast; ring
      · exact f4
    · dsimp only at hu hfu ⊢
      rw [upd_apply]
      split
      · rename_i e; subst e
        have h1 := hn.nxt u k hu
        have h2 := a4 u k hu hfu
        exact le_antisymm h1.2.1 (h2 ▸ h1.1)
      · exact a4 u k hu hfu
  | @flagEnd _ v a hae hd hm =>
    obtain ⟨a1, a2, a3, a4, a5, a6, a7⟩ := h
    refine ⟨a1, a2, a3, fun u k hu hfu => ?_, a5, a6, a7⟩
    dsimp only at hu hfu ⊢
    by_cases huv : u = v
    · subst huv
      obtain rfl : a = k := by rw [hae.2.1] at hu; simpa using hu
      exact hae.2.2.1
    · rw [upd_ne _ _ huv] at hfu; exact a4 u k hu hfu
  | @flagAbort _ v a hae hd ho ht =>
    obtain ⟨a1, a2, a3, a4, a5, a6, a7⟩ := h
    refine ⟨a1, a2, a3, fun u k hu hfu => ?_, a5, a6, a7⟩
    dsimp only at hu hfu ⊢
    by_cases huv : u = v
    · subst huv
      obtain rfl : a = k := by rw [hae.2.1] at hu; simpa using hu
      exact hae.2.2.1
    · rw [upd_ne _ _ huv] at hfu; exact a4 u k hu hfu
  | @startWait _ v hliv hs hd =>
    obtain ⟨a1, a2, a3, a4, a5, a6, a7⟩ := h
    refine ⟨fun u k hu => ?_, a2, fun u hu => ?_, a4, ⟨a5, trivial⟩, ?_, a7⟩
    · obtain ⟨T0, f1, f2⟩ := a1 u k hu
      exact ⟨T0, by rw [lastTake_other rfl]; exact f1, f2⟩
    · dsimp only at hu ⊢
      refine a3 u ?_
      rw [upd_apply] at hu
      split at hu
      · rename_i e; subst e; exact .inl hs
      · exact hu
    · intro hfin
      have : W.finalized = false := hfin
      rw [hc.fin] at this; cases this
  | @depart _ n v t cs l o hn hq hcs hl hout hent hcum hlead => exact ha.elim
  | @move _ n v a b t o q nl fc tta hn hinc hla hv hr hsig hout hfl hent hcd hca hu hlead hnl hq hfc htta =>
    exact ha.elim
  | @carfollow _ v l mr xn hrun hl hx => exact ha.elim
  | endTrip => exact absurd ⟨_, _, rfl⟩ hE
  | _ => exact h.congr rfl rfl rfl rfl rfl rfl rfl rfl rfl rfl rfl rfl rfl rfl

theorem weaken {u0} {W : World} (hc : Core W) (hok : ExactOK u0 W) (hn : KNext W) (h : TT u0 0 W) :
    TT u0 1 W := by
  obtain ⟨a1, a2, a3, a4, a5, a6, a7⟩ := h
  refine ⟨fun v l hl => ?_, a2, a3, a4, a5, a6, a7⟩
  obtain ⟨T0, f1, f2, f3, f4, -⟩ := a1 v l hl
  obtain ⟨hul, hu0⟩ := hok.u l (hc.s.link_run v l hl).2.2
  have hd := mul_nonneg hu0.le hok.phys.dt
  have h1 := (hn.nxt v l hl).2.2.2
  rw [hok.exact, hul] at h1
  simp only [id] at h1
  push_cast at f4 ⊢
  refine ⟨T0, f1, f2, f3, ?_, fun _ => ?_⟩
  · linarith
  · linarith

theorem step {u0} {W W1 : World} (hi : Inv W) (hf : W.finalized = true) (hok : ExactOK u0 W)
    (hk : KInv W) (h : W.step = .ok W1) (h0 : TT u0 0 W) : TT u0 0 { W1 with T := W1.T + 1 } := by
  obtain ⟨A, B, C, D, E, F, hp, rfl⟩ := step_phases (hi.core hf) h
  have hc := hi.core hf
  obtain ⟨kA, kB, kC, ⟨kD, nD⟩, kE, kF⟩ := hp.kin hc hok.phys hk
  have hearly : ∀ {A : Act → Prop} {X Y : World}, (∀ a, A a → isEarly a) → PStar A X Y → Core X →
      (ExactOK u0 X ∧ KInv X ∧ TT u0 0 X) → ExactOK u0 Y ∧ KInv Y ∧ TT u0 0 Y := by
    intro A X Y hA hXY hcX
    exact hXY.inv_core (P := fun Z => ExactOK u0 Z ∧ KInv Z ∧ TT u0 0 Z)
      (fun a Z Z' ha hcZ hp hz => ⟨hz.1.static hp.static, hz.2.1.early (hA a ha) hcZ hz.1.phys hp,
        hz.2.2.early (hA a ha) hcZ hz.1 hz.2.1 hp⟩) hcX
  have jA := hearly (fun a ha => isEarly_of (.inl ha)) hp.s1 hc ⟨hok, hk, h0⟩
  have jB := hearly (fun a ha => isEarly_of (.inr (.inl ha))) hp.s2 hp.c1 jA
  have jC := hearly (fun a ha => isEarly_of (.inr (.inr (.inl ha)))) hp.s3 hp.c2 jB
  have jD := hearly (fun a ha => isEarly_of (.inr (.inr (.inr ha)))) hp.s4 hp.c3 jC
  have hlate : ∀ {A : Act → Prop} {X Y : World}, (∀ a, A a → isLate a) → PStar A X Y → Core X →
      (ExactOK u0 X ∧ KNext X ∧ TT u0 1 X) → ExactOK u0 Y ∧ KNext Y ∧ TT u0 1 Y := by
    intro A X Y hA hXY hcX
    exact hXY.inv_core (P := fun Z => ExactOK u0 Z ∧ KNext Z ∧ TT u0 1 Z)
      (fun a Z Z' ha hcZ hp hz => ⟨hz.1.static hp.static, hz.2.1.late (hA a ha) hcZ hz.1.phys hp,
        hz.2.2.late (hA a ha) hcZ hz.1 hz.2.1 hp⟩) hcX
  have jE := hlate isUpdAny_late hp.s5 hp.c4 ⟨jD.1, nD, jD.2.2.weaken hp.c4 jD.1 nD⟩
  have jF := (hlate isRouting_late hp.s6 hp.c5 jE).2.2
  obtain ⟨a1, a2, a3, a4, a5, a6, a7⟩ := jF
  refine ⟨fun v l hl => ?_, a2, a3, a4, a5, a6, a7⟩
  obtain ⟨T0, f1, f2, f3, f4, -⟩ := a1 v l hl
  refine ⟨T0, f1, Nat.le_succ_of_le f2, f3, ?_, by simp⟩
  refine le_trans f4 (le_of_eq ?_)
  push_cast
  ring

end TT

theorem World.finalize_tta (W : World) (tm : Option ℚ) : ∃ ts, (W.finalize tm).L.ttActual = fun l =>
    if l < W.nLinks then List.replicate ts (W.fl (W.L.length l / W.L.u l)) else W.L.ttActual l := by
  have key : ∀ (ns : List NodeId) (X : World), (ns.foldl adjustNodeCapacity X).L.ttActual = X.L.ttActual := by
    intro ns
    induction ns with
    | nil => intro X; rfl
    | cons n ns ih =>
      intro X
      rw [List.foldl_cons, ih]
      obtain ⟨fc, fr, la, h⟩ := adjustNodeCapacity_frame X n
      rw [h]
  unfold finalize
  dsimp only
  split
  · rw [key]; exact ⟨_, rfl⟩
  · exact ⟨_, rfl⟩

theorem TT.reach {u0} {OK : World → Prop} (hO : ∀ W, OK W → ExactOK u0 W) {W : World}
    (h : Reachable OK W) : TT u0 0 W := by
  have h' := h.strengthen (Q := KInv) (fun W h => KInv.reach (fun W h => (hO W h).phys) h)
  clear h
  refine Reachable.induct (P := TT u0 0) ?_ ?_ ?_ ?_ ?_ ?_ ?_ ?_ h'
  · intro cfg tmax rng
    constructor <;> simp [World.new, NotFaster]
  · intro W a ph t soff hi hf hn _ _ hT
    exact hT.congr rfl rfl rfl rfl rfl rfl rfl rfl rfl rfl rfl rfl rfl rfl
  · intro W W' a hi hf ha _ _ hT
    obtain ⟨s, e, nm, k, p, -, -, -, -, -, -, rfl⟩ := addLink_ok ha
    have hno : ∀ v l, W.V.link v ≠ some l := by
      intro v l hl
      have := (hi.s.link_run v l hl).1
      rw [hi.s.unfinal hf v] at this
      cases this
    obtain ⟨a1, a2, a3, a4, a5, a6, a7⟩ := hT
    refine ⟨fun v l hl => absurd hl (hno v l), a2, a3, fun v l hl => absurd hl (hno v l), ?_, a6, ?_⟩
    · have : W.trace = [] := a6 hf
      show NotFaster _ _ _ W.trace
      rw [this]
      trivial
    · intro hfin
      have : W.finalized = true := hfin
      rw [hf] at this; cases this
  · intro W W' a hi ha hok _ hT
    obtain ⟨o, d, dep, pref, cache, lp, la, nm, -, -, -, -, -, -, -, -, rfl⟩ := addVehicle_ok ha
    obtain ⟨a1, a2, a3, a4, a5, a6, a7⟩ := hT
    refine ⟨fun v l => ?_, fun v l => ?_, fun v => ?_, fun v l => ?_, a5, a6, a7⟩
    · have h1 := a1 v l
      simp only [addVehRes, upd_apply]
      split
      · simp
      · exact h1
    · have h1 := a2 v l
      simp only [addVehRes, upd_apply]
      grind
    · have h1 := a3 v
      simp only [addVehRes, upd_apply]
      grind
    · have h1 := a4 v l
      simp only [addVehRes, upd_apply]
      grind
  · intro W tm hi hf hok hok' hT
    have hno : ∀ v l, W.V.link v ≠ some l := by
      intro v l hl
      have := (hi.s.link_run v l hl).1
      rw [hi.s.unfinal hf v] at this
      cases this
    obtain ⟨ts', htta⟩ := finalize_tta W tm
    have hE := hO _ hok.1
    obtain ⟨ts, tta, fc, fr, la, hr⟩ := finalize_frame W tm
    rw [hr] at htta ⊢
    obtain ⟨a1, a2, a3, a4, a5, a6, a7⟩ := hT
    refine ⟨fun v l hl => absurd hl (hno v l), a2, a3, a4, a5, ?_, ?_⟩
    · intro h; cases h
    · intro _ l hl q hq
      dsimp only at hq htta ⊢
      have hl' : l < W.nLinks := hl
      rw [htta] at hq
      simp only [hl', if_true] at hq
      have := List.eq_of_mem_replicate hq
      subst this
      obtain ⟨hu, hu0⟩ := hE.u l hl
      have hd := hE.phys.dt
      unfold World.fl
      rw [hE.exact, hu]
      simp only [id]
      linarith
  · intro W W' _ _ _ hs hT
    obtain ⟨_, _, _, _, _, _, _, rfl, -⟩ := hs
    exact hT.congr rfl rfl rfl rfl rfl rfl rfl rfl rfl rfl rfl rfl rfl rfl
  · intro W W' hi _ _ hs hT
    obtain ⟨_, _, _, _, _, _, _, _, _, _, _, _, _, _, _, dpl, _, _, _, rfl, hd⟩ := hs
    exact hT.congr rfl rfl rfl rfl rfl rfl rfl rfl rfl rfl rfl rfl rfl rfl
  · intro W W1 W' hi hf _ hok _ h1 hW hT
    subst hW
    exact hT.step hi hf (hO W hok.1) hok.2 h1

/-! ### Distance travelled -/

/-- Distance counted so far: at most the links passed plus the current position; equality as long as no
node has been passed; for each passed node less than one free-flow step is missing. -/
structure DI (u0 : LinkId → ℚ) (W : World) : Prop where
  le : ∀ v, W.V.dist v ≤ passedLength W.L.length v W.trace + (if W.V.link v = none then 0 else W.V.x v)
  eq : ∀ v, passCount v W.trace = 0 →
    W.V.dist v = passedLength W.L.length v W.trace + (if W.V.link v = none then 0 else W.V.x v)
  ge : ∀ v, passedLength W.L.length v W.trace + (if W.V.link v = none then 0 else W.V.x v) ≤
    W.V.dist v + carryBound u0 W.cfg.deltat v W.trace
  young : ∀ v, W.nVeh ≤ v → passedLength W.L.length v W.trace = 0 ∧
    carryBound u0 W.cfg.deltat v W.trace = 0

theorem DI.congr {u0} {W W' : World} (h : DI u0 W) (h1 : W'.V.link = W.V.link) (h2 : W'.V.x = W.V.x)
    (h3 : W'.L.length = W.L.length) (h6 : W'.trace = W.trace) (h7 : W'.V.dist = W.V.dist)
    (h8 : W'.nVeh = W.nVeh) (h9 : W'.cfg = W.cfg) : DI u0 W' := by
  obtain ⟨a1, a2, a4, a3⟩ := h
  constructor
  · rw [h1, h2, h3, h6, h7]; exact a1
  · rw [h1, h2, h3, h6, h7]; exact a2
  · rw [h1, h2, h3, h6, h7, h9]; exact a4
  · rw [h3, h6, h8, h9]; exact a3

theorem DI.prim {u0 b} {act : Act} {W W' : World} (hc : Core W) (hok : ExactOK u0 W) (hk : KInv W)
    (ht : TT u0 b W) (hp : Prim act W W') (h : DI u0 W) : DI u0 W' := by
  have hs := hp.shape hc.s
  clear hp
  have hfl : ∀ q, W.fl q = q := fun q => by unfold World.fl; rw [hok.exact]; rfl
  obtain ⟨a1, a2, a4, a3⟩ := h
  cases hs with
  | @depart _ n v t cs l o hn hq hcs hl hout hent hcum hlead =>
    have hw : W.V.state v = .wait := (hc.s.genq_mem n v (by simp [hq])).1
    have hvn : W.V.link v = none := by
      cases hm : W.V.link v with
      | none => rfl
      | some m =>
        have := (hc.s.link_run v m hm).1
        rw [hw] at this; cases this
    have key : ∀ u, (if upd W.V.link v (some l) u = none then 0 else upd W.V.x v 0 u) =
        if W.V.link u = none then 0 else W.V.x u := by
      intro u
      simp only [upd_apply]
      split_ifs <;> simp_all
    constructor
    · intro u
      dsimp only
      rw [key]
      simpa [passedLength, passedIn] using a1 u
    · intro u hu
      dsimp only
      rw [key]
      simpa [passedLength, passedIn] using a2 u (by simpa [passCount] using hu)
    · intro u
      dsimp only
      rw [key]
      simpa [passedLength, passedIn, carryBound] using a4 u
    · intro u hu
      simpa [passedLength, passedIn, carryBound] using a3 u hu
  | @move _ n v a b' t o q nl fc tta hn hinc hla hv hr hsig hout hfl' hent hcd hca hu hlead hnl hq hfc htta =>
    have hal : a < W.nLinks := (hc.s.link_run v a hla).2.2
    have hbl : b' < W.nLinks := hc.s.rnl_lt v b' hr
    have hx : W.V.x v = W.L.length a := (hc.s.inc_run n v a hinc hla).2.1
    obtain ⟨hua, hua0⟩ := hok.u a hal
    obtain ⟨hub, hub0⟩ := hok.u b' hbl
    have hq1 : q ≤ u0 b' * W.cfg.deltat := by
      rw [hq, carryOver_eq]
      refine le_trans carryPos_le ?_
      rw [hfl, hfl, hua, hub, div_le_iff₀ hua0]
      have := mul_le_mul_of_nonneg_right (ht.mr v a hla) hub0.le
      linarith
    have hq0 : 0 ≤ q := by
      rw [hq, carryOver_eq]; exact carryPos_nonneg hok.phys hal hbl (hk.mr v)
    constructor
    · intro u
      have h1 := a1 u
      dsimp only
      simp only [upd_apply]
      by_cases huv : u = v
      · subst huv
        simp only [passedLength, List.map_cons, List.sum_cons, passedIn, if_true] at h1 ⊢
        rw [hla, hx] at h1
        simp at h1 ⊢
        linarith
      · simpa [passedLength, passedIn, huv, Ne.symm huv] using h1
    · intro u hu
      dsimp only
      simp only [upd_apply]
      by_cases huv : u = v
      · subst huv
        simp [passCount] at hu
      · have h1 := a2 u (by simpa [passCount, Ne.symm huv] using hu)
        simpa [passedLength, passedIn, huv, Ne.symm huv] using h1
    · intro u
      have h1 := a4 u
      dsimp only
      simp only [upd_apply]
      by_cases huv : u = v
      · subst huv
        simp only [passedLength, carryBound, List.map_cons, List.sum_cons, passedIn, if_true] at h1 ⊢
        rw [hla, hx] at h1
        simp at h1 ⊢
        linarith
      · simpa [passedLength, passedIn, carryBound, huv, Ne.symm huv] using h1
    · intro u hu
      have huv : u ≠ v := by
        rintro rfl
        have := (hc.s.link_run u a hla).1
        rw [hc.s.fresh u hu] at this; cases this
      simpa [passedLength, passedIn, carryBound, huv, Ne.symm huv] using a3 u hu
  | @endTrip _ v l t log s c lt tta hl hv hf hcd hrun hliv hlt hlog htta =>
    have hx := ht.flag v l hl hf
    have key : ∀ u, passedLength W.L.length u (.finish W.T v l (W.V.flagAborted v) :: W.trace) +
        (if upd W.V.link v none u = none then 0 else upd W.V.x v 0 u) =
        passedLength W.L.length u W.trace + (if W.V.link u = none then 0 else W.V.x u) := by
      intro u
      by_cases huv : u = v
      · subst huv
        simp [passedLength, passedIn, hl, hx, add_comm]
      · simp [passedLength, passedIn, upd_apply, huv, Ne.symm huv]
    constructor
    · intro u
      dsimp only
      rw [key]; exact a1 u
    · intro u hu
      dsimp only
      rw [key]; exact a2 u (by simpa [passCount] using hu)
    · intro u
      dsimp only
      rw [key]; simpa [carryBound] using a4 u
    · intro u hu
      have huv : u ≠ v := by
        rintro rfl
        have := (hc.s.link_run u l hl).1
        rw [hc.s.fresh u hu] at this; cases this
      simpa [passedLength, passedIn, carryBound, huv, Ne.symm huv] using a3 u hu
  | @advance _ v hs hlo hinc =>
    have hl : W.V.link v ≠ none := hc.s.run_link v hs
    constructor
    · intro u
      have := a1 u
      dsimp only
      simp only [upd_apply, hfl]
      split_ifs <;> simp_all
      linarith
    · intro u hu
      have := a2 u hu
      dsimp only
      simp only [upd_apply, hfl]
      split_ifs <;> simp_all
    · intro u
      have := a4 u
      dsimp only
      simp only [upd_apply, hfl]
      split_ifs <;> simp_all
      linarith
    · exact a3
  | @startWait _ v hliv hs hd =>
    exact ⟨fun u => by simpa [passedLength, passedIn] using a1 u,
      fun u hu => by simpa [passedLength, passedIn] using a2 u (by simpa [passCount] using hu),
      fun u => by simpa [passedLength, passedIn, carryBound] using a4 u,
      fun u hu => by simpa [passedLength, passedIn, carryBound] using a3 u hu⟩
  | _ => exact ⟨a1, a2, a4, a3⟩

theorem DI.step {u0} {W W1 : World} (hi : Inv W) (hf : W.finalized = true) (hok : ExactOK u0 W)
    (hk : KInv W) (ht : TT u0 0 W) (h : W.step = .ok W1) (h0 : DI u0 W) :
    DI u0 { W1 with T := W1.T + 1 } := by
  obtain ⟨A, B, C, D, E, F, hp, rfl⟩ := step_phases (hi.core hf) h
  have hc := hi.core hf
  obtain ⟨kA, kB, kC, ⟨kD, nD⟩, kE, kF⟩ := hp.kin hc hok.phys hk
  have hearly : ∀ {A : Act → Prop} {X Y : World}, (∀ a, A a → isEarly a) → PStar A X Y → Core X →
      (ExactOK u0 X ∧ KInv X ∧ TT u0 0 X ∧ DI u0 X) → ExactOK u0 Y ∧ KInv Y ∧ TT u0 0 Y ∧ DI u0 Y := by
    intro A X Y hA hXY hcX
    exact hXY.inv_core (P := fun Z => ExactOK u0 Z ∧ KInv Z ∧ TT u0 0 Z ∧ DI u0 Z)
      (fun a Z Z' ha hcZ hp hz => ⟨hz.1.static hp.static, hz.2.1.early (hA a ha) hcZ hz.1.phys hp,
        hz.2.2.1.early (hA a ha) hcZ hz.1 hz.2.1 hp, hz.2.2.2.prim hcZ hz.1 hz.2.1 hz.2.2.1 hp⟩) hcX
  have jA := hearly (fun a ha => isEarly_of (.inl ha)) hp.s1 hc ⟨hok, hk, ht, h0⟩
  have jB := hearly (fun a ha => isEarly_of (.inr (.inl ha))) hp.s2 hp.c1 jA
  have jC := hearly (fun a ha => isEarly_of (.inr (.inr (.inl ha)))) hp.s3 hp.c2 jB
  have jD := hearly (fun a ha => isEarly_of (.inr (.inr (.inr ha)))) hp.s4 hp.c3 jC
  have hlate : ∀ {A : Act → Prop} {X Y : World}, (∀ a, A a → isLate a) → PStar A X Y → Core X →
      (ExactOK u0 X ∧ (KInv X ∧ KNext X) ∧ TT u0 1 X ∧ DI u0 X) →
      ExactOK u0 Y ∧ (KInv Y ∧ KNext Y) ∧ TT u0 1 Y ∧ DI u0 Y := by
    intro A X Y hA hXY hcX
    exact hXY.inv_core (P := fun Z => ExactOK u0 Z ∧ (KInv Z ∧ KNext Z) ∧ TT u0 1 Z ∧ DI u0 Z)
      (fun a Z Z' ha hcZ hp hz => ⟨hz.1.static hp.static,
        ⟨hz.2.1.1.late (hA a ha) hcZ hp hz.2.1.2, hz.2.1.2.late (hA a ha) hcZ hz.1.phys hp⟩,
        hz.2.2.1.late (hA a ha) hcZ hz.1 hz.2.1.2 hp,
        hz.2.2.2.prim hcZ hz.1 hz.2.1.1 hz.2.2.1 hp⟩) hcX
  have jE := hlate isUpdAny_late hp.s5 hp.c4
    ⟨jD.1, ⟨kD, nD⟩, jD.2.2.1.weaken hp.c4 jD.1 nD, jD.2.2.2⟩
  have jF := (hlate isRouting_late hp.s6 hp.c5 jE).2.2.2
  exact jF.congr rfl rfl rfl rfl rfl rfl rfl

theorem DI.reach {u0} {OK : World → Prop} (hO : ∀ W, OK W → ExactOK u0 W) {W : World}
    (h : Reachable OK W) : DI u0 W := by
  have h' := (h.strengthen (Q := KInv) (fun W h => KInv.reach (fun W h => (hO W h).phys) h)).strengthen
    (Q := TT u0 0) (fun W h => TT.reach (fun W h => hO W h.1) h)
  clear h
  refine Reachable.induct (P := DI u0) ?_ ?_ ?_ ?_ ?_ ?_ ?_ ?_ h'
  · intro cfg tmax rng
    constructor <;> simp [World.new, passedLength, carryBound]
  · intro W a ph t soff hi hf hn _ _ hT
    exact hT.congr rfl rfl rfl rfl rfl rfl rfl
  · intro W W' a hi hf ha hok _ hT
    obtain ⟨s, e, nm, k, p, -, -, -, -, -, -, rfl⟩ := addLink_ok ha
    have htr : W.trace = [] := hok.2.unf hf
    obtain ⟨a1, a2, a4, a3⟩ := hT
    constructor
    · intro v
      have := a1 v
      rw [htr] at this
      show W.V.dist v ≤ passedLength _ v W.trace + (if W.V.link v = none then 0 else W.V.x v)
      rw [htr]; exact this
    · intro v hv
      have := a2 v hv
      rw [htr] at this
      show W.V.dist v = passedLength _ v W.trace + (if W.V.link v = none then 0 else W.V.x v)
      rw [htr]; exact this
    · intro v
      have := a4 v
      rw [htr] at this
      show passedLength _ v W.trace + (if W.V.link v = none then 0 else W.V.x v) ≤
        W.V.dist v + carryBound u0 _ v W.trace
      rw [htr]; exact this
    · intro v hv
      show passedLength _ v W.trace = 0 ∧ carryBound u0 _ v W.trace = 0
      rw [htr]; exact ⟨rfl, rfl⟩
  · intro W W' a hi ha hok _ hT
    obtain ⟨o, d, dep, pref, cache, lp, la, nm, -, -, -, -, -, -, -, -, rfl⟩ := addVehicle_ok ha
    obtain ⟨a1, a2, a4, a3⟩ := hT
    have hnl : W.V.link W.nVeh = none := by
      cases hm : W.V.link W.nVeh with
      | none => rfl
      | some m =>
        have := (hi.s.link_run _ m hm).1
        rw [hi.s.fresh W.nVeh le_rfl] at this; cases this
    have hz : passedLength W.L.length W.nVeh W.trace = 0 ∧ carryBound u0 W.cfg.deltat W.nVeh W.trace = 0 :=
      a3 _ le_rfl
    constructor
    · intro v
      have := a1 v
      simp only [addVehRes, upd_apply]
      by_cases hv : v = W.nVeh
      · subst hv; simp [hz]
      · simpa [hv] using this
    · intro v hpc
      have := a2 v hpc
      simp only [addVehRes, upd_apply]
      by_cases hv : v = W.nVeh
      · subst hv; simp [hz]
      · simpa [hv] using this
    · intro v
      have := a4 v
      simp only [addVehRes, upd_apply]
      by_cases hv : v = W.nVeh
      · subst hv; simp [hz]
      · simpa [hv] using this
    · intro v hv
      exact a3 v (Nat.le_of_succ_le hv)
  · intro W tm hi hf hok hok' hT
    obtain ⟨ts, tta, fc, fr, la, hr⟩ := finalize_frame W tm
    rw [hr]
    exact hT.congr rfl rfl rfl rfl rfl rfl rfl
  · intro W W' _ _ _ hs hT
    obtain ⟨_, _, _, _, _, _, _, rfl, -⟩ := hs
    exact hT.congr rfl rfl rfl rfl rfl rfl rfl
  · intro W W' hi _ _ hs hT
    obtain ⟨_, _, _, _, _, _, _, _, _, _, _, _, _, _, _, dpl, _, _, _, rfl, hd⟩ := hs
    exact hT.congr rfl rfl rfl rfl rfl rfl rfl
  · intro W W1 W' hi hf _ hok _ h1 hW hT
    subst hW
    exact hT.step hi hf (hO W hok.1.1) hok.1.2 hok.2 h1

end UX
