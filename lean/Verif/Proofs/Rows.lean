import Verif.Proofs.Logs
import Verif.Proofs.Life
import Verif.Proofs.Forward
import Verif.Proofs.TravelTime
import Mathlib.Tactic.FieldSimp
import Mathlib.Data.List.Chain

/-! # Consecutive log rows of a vehicle -/

namespace UX
open World

def NoLoop (W : World) : Prop := ∀ l, l < W.nLinks → W.L.startN l ≠ W.L.endN l

/-- Where vehicles are before the vehicle-update phase, compared with the start `W` of the step. -/
structure EarlyTr (u0 : LinkId → ℚ) (W X : World) : Prop where
  ns : NoStale X
  kinds : ∀ v l, X.V.link v = some l →
    (W.V.link v = some l ∧ X.V.x v = W.V.x v) ∨
    (W.V.link v = none ∧ X.V.x v = 0 ∧ ∀ n, v ∉ X.N.incoming n) ∨
    ∃ a, W.V.link v = some a ∧ a ≠ l ∧ X.V.linkOld v = some a ∧ X.V.x v ≤ u0 l * X.cfg.deltat ∧
      W.V.x v = X.L.length a
  start : ∀ v, X.V.state v = .wait → W.V.link v = none

theorem EarlyTr.prim {u0} {W X Y : World} {act : Act} (ha : isEarly act) (hc : Core X)
    (hok : ExactOK u0 X) (hT : TT u0 0 X) (hl : NoLoop X)
    (hp : Prim act X Y) (h : EarlyTr u0 W X) : EarlyTr u0 W Y := by
  obtain ⟨hn, hk, hw⟩ := h
  refine ⟨hn.early ha hc hp, ?_, ?_⟩
  · have hs := hp.shape hc.s
    clear hp
    cases hs with
    | @depart _ n v t cs l o hn' hq hcs hl' hout hent hcum hlead =>
      intro u k hu
      by_cases e : u = v
      · subst e
        have hwt := (hc.s.genq_mem n u (by simp [hq])).1
        refine .inr (.inl ⟨hw u hwt, upd_same _ _ _, fun m hm => ?_⟩)
        exact (hc.s.inc_old m u hm).2 hwt
      · simp only [upd_ne _ _ e] at hu ⊢
        exact hk u k hu
    | @move _ n v a b t o q nl fc tta hn' hinc hla hv hr hsig hout hfl hent hcd hca hu hlead hnl hq hfc htta =>
      intro w k hw'
      by_cases e : w = v
      · subst e
        simp only [upd_same, Option.some.injEq] at hw' ⊢
        subst hw'
        have hi := hc.s.inc_run n w a hinc hla
        have hla' := (hc.s.link_run w a hla).2.2
        have hbl := hc.s.rnl_lt w b hr
        rcases hk w a hla with ⟨h1, h2⟩ | ⟨-, -, h3⟩ | ⟨a', h1, h2, h3, -, -⟩
        · refine .inr (.inr ⟨a, h1, ?_, hi.2.2, ?_, h2.symm.trans hi.2.1⟩)
          · rintro rfl
            exact hl a hla' ((hn n w a hinc hr).trans hi.1.symm)
          · rw [hq, carryOver_eq]
            refine carryPos_le.trans ?_
            have hm := hT.mr w a hla
            have hua := hok.u a hla'
            have hub := hok.u b hbl
            unfold World.fl
            rw [hok.exact, id, id, hua.1, hub.1, div_le_iff₀ hua.2]
            have := mul_le_mul_of_nonneg_right hm hub.2.le
            linarith
        · exact absurd hinc (h3 n)
        · rw [hi.2.2] at h3
          exact absurd (Option.some.inj h3).symm h2
      · simp only [upd_ne _ _ e] at hw' ⊢
        rcases hk w k hw' with h | ⟨h1, h2, h3⟩ | h
        · exact .inl h
        · refine .inr (.inl ⟨h1, h2, fun m hm => h3 m ?_⟩)
          rw [upd_apply] at hm
          split at hm
          · rename_i e; subst e; exact List.mem_of_mem_erase hm
          · exact hm
        · exact .inr (.inr h)
    | @endTrip _ v l t log s c lt tta hl hv hf hcd hrun hliv hlt hlog htta =>
      intro w k hw'
      by_cases e : w = v
      · subst e
        simp [upd_same] at hw'
      · simp only [upd_ne _ _ e] at hw' ⊢
        exact hk w k hw'
    | @clearInc _ n hn =>
      intro w k hw'
      rcases hk w k hw' with h | ⟨h1, h2, h3⟩ | h
      · exact .inl h
      · refine .inr (.inl ⟨h1, h2, fun m hm => h3 m ?_⟩)
        dsimp only at hm
        rw [upd_apply] at hm
        split at hm
        · simp at hm
        · exact hm
      · exact .inr (.inr h)
    | linkTick => exact hk
    | nodeTick => exact hk
    | carfollow => exact hk
    | routing => exact hk
    | _ => exact ha.elim
  · have hs := hp.shape hc.s
    clear hp
    cases hs with
    | @depart _ n v t cs l o hn' hq hcs hl' hout hent hcum hlead =>
      intro u hu
      by_cases e : u = v
      · subst e; simp [upd_same] at hu
      · simp only [upd_ne _ _ e] at hu; exact hw u hu
    | move => exact hw
    | @endTrip _ v l t log s c lt tta hl hv hf hcd hrun hliv hlt hlog htta =>
      intro u hu
      by_cases e : u = v
      · subst e; simp only [upd_same] at hu; split at hu <;> cases hu
      · simp only [upd_ne _ _ e] at hu; exact hw u hu
    | clearInc => exact hw
    | linkTick => exact hw
    | nodeTick => exact hw
    | carfollow => exact hw
    | routing => exact hw
    | _ => exact ha.elim

/-- What holds before the vehicle-update phase. -/
theorem Phases.early {u0} {W A B C D E F : World} (hp : Phases W A B C D E F) (hc : Core W)
    (hok : ExactOK u0 W) (hk : KInv W) (hT : TT u0 0 W) (hl : NoLoop W) (hn : NoStale W) :
    ExactOK u0 D ∧ KInv D ∧ EarlyTr u0 W D := by
  have hearly : ∀ {A : Act → Prop} {X Y : World}, (∀ a, A a → isEarly a) → PStar A X Y → Core X →
      (ExactOK u0 X ∧ KInv X ∧ TT u0 0 X ∧ NoLoop X ∧ EarlyTr u0 W X) →
      ExactOK u0 Y ∧ KInv Y ∧ TT u0 0 Y ∧ NoLoop Y ∧ EarlyTr u0 W Y := by
    intro A X Y hA hXY hcX
    exact hXY.inv_core (P := fun X => ExactOK u0 X ∧ KInv X ∧ TT u0 0 X ∧ NoLoop X ∧ EarlyTr u0 W X)
      (fun a Z Z' ha hcZ hp hz => ⟨hz.1.static hp.static, hz.2.1.early (hA a ha) hcZ hz.1.phys hp,
        hz.2.2.1.early (hA a ha) hcZ hz.1 hz.2.1 hp,
        by have := hp.static; unfold NoLoop; rw [this.nLinks, this.startN, this.endN]; exact hz.2.2.2.1,
        hz.2.2.2.2.prim (hA a ha) hcZ hz.1 hz.2.2.1 hz.2.2.2.1 hp⟩) hcX
  have h0 : EarlyTr u0 W W := by
    refine ⟨hn, fun v l hl => .inl ⟨hl, rfl⟩, fun v hv => ?_⟩
    cases hl : W.V.link v with
    | none => rfl
    | some l => have := (hc.s.link_run v l hl).1; rw [hv] at this; cases this
  have jA := hearly (fun a ha => isEarly_of (.inl ha)) hp.s1 hc ⟨hok, hk, hT, hl, h0⟩
  have jB := hearly (fun a ha => isEarly_of (.inr (.inl ha))) hp.s2 hp.c1 jA
  have jC := hearly (fun a ha => isEarly_of (.inr (.inr (.inl ha)))) hp.s3 hp.c2 jB
  have jD := hearly (fun a ha => isEarly_of (.inr (.inr (.inr ha)))) hp.s4 hp.c3 jC
  exact ⟨jD.1, jD.2.1, jD.2.2.2.2⟩

/-- Two rows on links, `r1` next after `r0`. -/
structure rowStep (u0 len : LinkId → ℚ) (dt : ℚ) (r1 r0 : LogRow) : Prop where
  time : r1.t = r0.t + dt
  same : ∀ l, r1.link = some l → r0.link = some l → r0.x ≤ r1.x ∧ r1.x ≤ r0.x + u0 l * dt
  next : ∀ l0 l1, r0.link = some l0 → r1.link = some l1 → l0 ≠ l1 →
    len l0 - u0 l0 * dt ≤ r0.x ∧ r1.x ≤ u0 l1 * dt

structure RowOK (u0 : LinkId → ℚ) (W : World) (l : LinkId) (r : LogRow) : Prop where
  link : l < W.nLinks
  t : 0 ≤ r.t
  x0 : 0 ≤ r.x
  x1 : r.x ≤ W.L.length l
  xt : r.x ≤ u0 l * r.t

/-- The logs of all vehicles, between steps. -/
structure RowsI (u0 : LinkId → ℚ) (W : World) : Prop where
  run : ∀ v, W.V.state v = .run → 1 ≤ W.T ∧ ∃ r t l, W.V.log v = r :: t ∧ r.link = some l ∧
    W.V.link v = some l ∧ r.x = W.V.xOld v ∧ r.t = ((W.T : ℚ) - 1) * W.cfg.deltat ∧
    W.V.xOld v ≤ W.V.x v ∧ W.V.x v ≤ W.V.xOld v + u0 l * W.cfg.deltat
  idle : ∀ v, W.V.state v = .home ∨ W.V.state v = .wait → ∀ r ∈ W.V.log v, r.link = none
  rows : ∀ v, ∀ r ∈ W.V.log v, ∀ l, r.link = some l → RowOK u0 W l r
  chain : ∀ v, ((W.V.log v).filter (·.link.isSome)).IsChain (rowStep u0 W.L.length W.cfg.deltat)

theorem RowsI.congr {u0} {W W' : World} (h : RowsI u0 W) (h1 : W'.V.state = W.V.state)
    (h2 : W'.T = W.T) (h3 : W'.V.log = W.V.log) (h4 : W'.V.link = W.V.link) (h5 : W'.V.x = W.V.x)
    (h6 : W'.V.xOld = W.V.xOld) (h7 : W'.cfg = W.cfg) (h8 : W'.nLinks = W.nLinks)
    (h9 : W'.L.length = W.L.length) : RowsI u0 W' := by
  obtain ⟨a, b, c, d⟩ := h
  refine ⟨?_, ?_, ?_, ?_⟩
  · rw [h1, h2, h3, h4, h5, h6, h7]; exact a
  · rw [h1, h3]; exact b
  · rw [h3]; intro v r hr l hl
    obtain ⟨e1, e2, e3, e4, e5⟩ := c v r hr l hl
    exact ⟨by rw [h8]; exact e1, e2, e3, by rw [h9]; exact e4, e5⟩
  · rw [h3, h7, h9]; exact d

theorem RowsI.tick {u0} {W W1 : World} (hi : Inv W) (hf : W.finalized = true) (h1 : W.cfg.logInterval = 1)
    (hok : ExactOK u0 W) (hk : KInv W) (hT : TT u0 0 W) (hl : NoLoop W) (hn : NoStale W)
    (h : W.step = .ok W1) (h0 : RowsI u0 W) : RowsI u0 { W1 with T := W1.T + 1 } := by
  have hlife := step_life hi hf h
  obtain ⟨A, B, C, D, E, F, hp, rfl⟩ := step_phases (hi.core hf) h
  have hc := hi.core hf
  have hstD : Static W D := ((hp.s1.static.trans hp.s2.static).trans hp.s3.static).trans hp.s4.static
  have hstF : Static W F := (hstD.trans hp.s5.static).trans hp.s6.static
  obtain ⟨okD, kD, eD⟩ := hp.early hc hok hk hT hl hn
  obtain ⟨kF, -, mF⟩ := (hp.kin hc hok.phys hk).2.2.2.2.2
  have hnow : W.now = (W.T : ℚ) * W.cfg.deltat := by
    unfold World.now World.fl World.dt; rw [hok.exact]; rfl
  have hdt : 0 ≤ W.cfg.deltat := hok.phys.dt
  -- a new row that says where the vehicle is before its update
  have key : ∀ v, v ∈ D.living → D.V.log v = W.V.log v → ∀ r : LogRow, r.t = W.now → ∀ l, r.link = some l →
      D.V.link v = some l → r.x = D.V.x v →
      RowOK u0 F l r ∧ ((r :: (W.V.log v).filter (·.link.isSome)).IsChain (rowStep u0 W.L.length W.cfg.deltat)) := by
    intro v hv hlog r hrt l hrl hDl hrx
    have hlt : l < D.nLinks := (hp.c4.s.link_run v l hDl).2.2
    have hlW : l < W.nLinks := by rw [← hstD.nLinks]; exact hlt
    have hpos := kD.pos v l hDl
    have hu := (hok.u l hlW).2
    have hcons : ∀ {x : ℚ}, x ≤ u0 l * r.t → r.x = x → RowOK u0 F l r := by
      intro x hx hrx'
      refine ⟨by rw [hstF.nLinks]; exact hlW, ?_, by rw [hrx]; exact hpos.1, ?_, by rw [hrx']; exact hx⟩
      · rw [hrt, hnow]; exact mul_nonneg (Nat.cast_nonneg _) hdt
      · rw [hrx, hstF.length, ← hstD.length]; exact hpos.2.1
    rcases eD.kinds v l hDl with ⟨k1, k2⟩ | ⟨k1, k2, -⟩ | ⟨a, k1, k2, -, k4, k5⟩
    · have hrun := (hi.s.link_run v l k1).1
      obtain ⟨hT1, r0, t0, l0, e1, e2, e3, e4, e5, e6, e7⟩ := h0.run v hrun
      obtain rfl : l0 = l := Option.some.inj (e3.symm.trans k1)
      have hr0 := h0.rows v r0 (by rw [e1]; exact List.mem_cons_self) l0 e2
      refine ⟨hcons (x := W.V.x v) ?_ (hrx.trans k2), ?_⟩
      · have : r.t = r0.t + W.cfg.deltat := by rw [hrt, hnow, e5]; ring
        rw [this, mul_add]
        have := hr0.xt
        rw [e4] at this
        linarith
      · rw [e1, List.filter_cons_of_pos (by simp [e2])]
        have hch := h0.chain v
        rw [e1, List.filter_cons_of_pos (by simp [e2])] at hch
        refine List.IsChain.cons_cons ?_ hch
        refine ⟨by rw [hrt, hnow, e5]; ring, ?_, ?_⟩
        · intro l' hl' _
          obtain rfl : l0 = l' := Option.some.inj (hrl.symm.trans hl')
          refine ⟨?_, ?_⟩
          · rw [hrx, k2, e4]; exact e6
          · rw [hrx, k2, e4]; exact e7
        · intro m0 m1 hm0 hm1 hne
          rw [e2] at hm0; rw [hrl] at hm1
          exact absurd ((Option.some.inj hm0).symm.trans (Option.some.inj hm1)) hne
    · refine ⟨hcons (x := 0) ?_ (hrx.trans k2), ?_⟩
      · rw [hrt, hnow]
        exact mul_nonneg hu.le (mul_nonneg (Nat.cast_nonneg _) hdt)
      · have hvW : v ∈ W.living := by
          have := (hp.log (v := v) hc h1).1.alive hv; exact this.1
        have hst := (hi.s.living_iff v).1 hvW
        have hni : W.V.state v = .home ∨ W.V.state v = .wait := by
          cases hs : W.V.state v with
          | home => exact .inl rfl
          | wait => exact .inr rfl
          | run => exact absurd k1 (hi.s.run_link v hs)
          | ended => exact absurd hs hst.2.1
          | abort => exact absurd hs hst.2.2
        have : (W.V.log v).filter (·.link.isSome) = [] := by
          rw [List.filter_eq_nil_iff]
          intro r hr; rw [h0.idle v hni r hr]; simp
        rw [this]; exact List.IsChain.singleton _
    · have hrun := (hi.s.link_run v a k1).1
      obtain ⟨hT1, r0, t0, l0, e1, e2, e3, e4, e5, e6, e7⟩ := h0.run v hrun
      obtain rfl : l0 = a := Option.some.inj (e3.symm.trans k1)
      refine ⟨hcons ?_ hrx, ?_⟩
      · refine k4.trans ?_
        rw [hrt, hnow, hstD.cfg]
        have h1T : (1 : ℚ) ≤ W.T := by exact_mod_cast hT1
        have : W.cfg.deltat ≤ W.T * W.cfg.deltat := by nlinarith
        exact mul_le_mul_of_nonneg_left this hu.le
      · rw [e1, List.filter_cons_of_pos (by simp [e2])]
        have hch := h0.chain v
        rw [e1, List.filter_cons_of_pos (by simp [e2])] at hch
        refine List.IsChain.cons_cons ?_ hch
        refine ⟨by rw [hrt, hnow, e5]; ring, ?_, ?_⟩
        · intro l' hl' hr0
          rw [e2] at hr0
          rw [hrl] at hl'
          exact absurd ((Option.some.inj hr0).trans (Option.some.inj hl').symm) k2
        · intro m0 m1 hm0 hm1 _
          rw [e2] at hm0; rw [hrl] at hm1
          obtain rfl := Option.some.inj hm0
          obtain rfl := Option.some.inj hm1
          refine ⟨?_, ?_⟩
          · rw [e4, ← hstD.length, ← k5]; linarith
          · rw [hrx, ← hstD.cfg]; exact k4
  have old : ∀ v, ∀ r ∈ W.V.log v, ∀ l, r.link = some l → RowOK u0 F l r := by
    intro v r hr l hl
    obtain ⟨e1, e2, e3, e4, e5⟩ := h0.rows v r hr l hl
    exact ⟨by rw [hstF.nLinks]; exact e1, e2, e3, by rw [hstF.length]; exact e4, e5⟩
  have hliv : ∀ v, F.V.state v = .run → v ∈ F.living := by
    intro v hv
    refine (hp.c6.s.living_iff v).2 ⟨?_, by rw [hv]; simp, by rw [hv]; simp⟩
    by_contra hlt
    have := hp.c6.s.fresh v (Nat.le_of_not_lt hlt)
    rw [hv] at this; cases this
  have main : ∀ v, (F.V.state v = .run → 1 ≤ F.T + 1 ∧ ∃ r t l, F.V.log v = r :: t ∧ r.link = some l ∧
        F.V.link v = some l ∧ r.x = F.V.xOld v ∧ r.t = (((F.T + 1 : ℕ) : ℚ) - 1) * F.cfg.deltat ∧
        F.V.xOld v ≤ F.V.x v ∧ F.V.x v ≤ F.V.xOld v + u0 l * F.cfg.deltat) ∧
      (F.V.state v = .home ∨ F.V.state v = .wait → ∀ r ∈ F.V.log v, r.link = none) ∧
      (∀ r ∈ F.V.log v, ∀ l, r.link = some l → RowOK u0 F l r) ∧
      ((F.V.log v).filter (·.link.isSome)).IsChain (rowStep u0 F.L.length F.cfg.deltat) := by
    intro v
    rw [hstF.cfg, hstF.length]
    obtain ⟨hE, hU1, hU2⟩ := hp.log (v := v) hc h1
    have hidle : F.V.state v = .home ∨ F.V.state v = .wait → W.V.state v = .home ∨ W.V.state v = .wait := by
      intro hs
      have := hlife v
      unfold TickLife at this
      rcases hs with hs | hs <;> (simp only [hs] at this; simp at this; tauto)
    by_cases hv : v ∈ D.living
    · obtain ⟨hvW, hlog⟩ := hE.alive hv
      have hU := hU1 hv
      by_cases hvF : v ∈ F.living
      · obtain ⟨r, hr, hrt, hrun, hnot⟩ := hU.alive hvF
        rw [hstD.now] at hrt
        rw [hlog] at hr
        rw [hr]
        by_cases hs : F.V.state v = .run
        · obtain ⟨-, b2, b3, -, b5, b6⟩ := hrun hs
          obtain ⟨l, hFl⟩ := Option.ne_none_iff_exists'.1 (hp.c6.s.run_link v hs)
          have hlF := (hp.c6.s.link_run v l hFl).2.2
          obtain ⟨g1, g2⟩ := key v hv hlog r hrt l (b2.trans hFl) (b5.symm.trans hFl) (b3.trans b6)
          refine ⟨fun _ => ⟨Nat.succ_le_succ (Nat.zero_le _), r, _, l, rfl, b2.trans hFl, hFl, b3, ?_, ?_⟩, ?_, ?_, ?_⟩
          · rw [hrt, hnow, hstF.T]; push_cast; ring
          · have := (mF v).ok l hFl
            rw [hstF.cfg, hok.exact, hstF.u, (hok.u l (by rw [← hstF.nLinks]; exact hlF)).1] at this
            exact ⟨this.1, this.2.1⟩
          · intro hh; rw [hs] at hh; rcases hh with hh | hh <;> cases hh
          · intro r' hr' l' hl'
            rcases List.mem_cons.1 hr' with rfl | hr'
            · obtain rfl : l = l' := Option.some.inj ((b2.trans hFl).symm.trans hl')
              exact g1
            · exact old v r' hr' l' hl'
          · rw [List.filter_cons_of_pos (by simp [b2, hFl])]; exact g2
        · have hrn := hnot hs
          refine ⟨fun h => absurd h hs, fun hh r' hr' => ?_, fun r' hr' l' hl' => ?_, ?_⟩
          · rcases List.mem_cons.1 hr' with rfl | hr'
            · exact hrn
            · exact h0.idle v (hidle hh) r' hr'
          · rcases List.mem_cons.1 hr' with rfl | hr'
            · rw [hrn] at hl'; cases hl'
            · exact old v r' hr' l' hl'
          · rw [List.filter_cons_of_neg (by simp [hrn])]; exact h0.chain v
      · obtain ⟨e, r, hr, hrt, -, -, hel, hrl, hrx⟩ := hU.gone hvF
        rw [hstD.now] at hrt
        rw [hlog] at hr
        have hlt : v < F.nVeh := by rw [hstF.nVeh]; exact ((hi.s.living_iff v).1 hvW).1
        have hnl : ¬ (F.V.state v = .run) := fun h => hvF (hliv v h)
        rw [hr]
        refine ⟨fun h => absurd h hnl, fun hh => ?_, fun r' hr' l' hl' => ?_, ?_⟩
        · refine absurd ((hp.c6.s.living_iff v).2 ⟨hlt, ?_⟩) hvF
          rcases hh with hh | hh <;> rw [hh] <;> simp
        · rcases List.mem_cons.1 hr' with rfl | hr'
          · rw [hel] at hl'; cases hl'
          rcases List.mem_cons.1 hr' with rfl | hr'
          · exact (key v hv hlog _ hrt l' hl' (hrl.symm.trans hl') hrx).1
          · exact old v r' hr' l' hl'
        · rw [List.filter_cons_of_neg (by simp [hel])]
          cases hl : r.link with
          | none => rw [List.filter_cons_of_neg (by simp [hl])]; exact h0.chain v
          | some l =>
            rw [List.filter_cons_of_pos (by simp [hl])]
            exact (key v hv hlog _ hrt l hl (hrl.symm.trans hl) hrx).2
    · have hS := hU2 hv
      have hvF : v ∉ F.living := fun h => hv (hS.living.1 h)
      have hnl : ¬ (F.V.state v = .run) := fun h => hvF (hliv v h)
      have hnew : F.V.state v = .home ∨ F.V.state v = .wait → v ∉ W.living := by
        intro hh hvW
        have hlt : v < F.nVeh := by rw [hstF.nVeh]; exact ((hi.s.living_iff v).1 hvW).1
        refine absurd ((hp.c6.s.living_iff v).2 ⟨hlt, ?_⟩) hvF
        rcases hh with hh | hh <;> rw [hh] <;> simp
      rw [hS.log]
      rcases hE.gone hv with ⟨-, b⟩ | ⟨a, e, b, -, -, d⟩
      · rw [b]
        exact ⟨fun h => absurd h hnl, fun hh => h0.idle v (hidle hh), old v, h0.chain v⟩
      · rw [b]
        refine ⟨fun h => absurd h hnl, fun hh => absurd a (hnew hh), fun r' hr' l' hl' => ?_, ?_⟩
        · rcases List.mem_cons.1 hr' with rfl | hr'
          · rw [d] at hl'; cases hl'
          · exact old v r' hr' l' hl'
        · rw [List.filter_cons_of_neg (by simp [d])]; exact h0.chain v
  exact ⟨fun v => (main v).1, fun v => (main v).2.1, fun v r hr l hl => by
    obtain ⟨e1, e2, e3, e4, e5⟩ := (main v).2.2.1 r hr l hl
    exact ⟨e1, e2, e3, e4, e5⟩, fun v => (main v).2.2.2⟩

theorem RowsI.reach {u0} {OK : World → Prop}
    (hO : ∀ W, OK W → ExactOK u0 W ∧ NoStale W ∧ NoLoop W ∧ W.cfg.logInterval = 1) {W : World}
    (h : Reachable OK W) : RowsI u0 W := by
  have h' := (h.strengthen (Q := KInv) (fun W h => KInv.reach (fun W h => (hO W h).1.phys) h)).strengthen
    (Q := TT u0 0) (fun W h => TT.reach (fun W h => (hO W h.1).1) h)
  clear h
  refine Reachable.induct (P := RowsI u0) ?_ ?_ ?_ ?_ ?_ ?_ ?_ ?_ h'
  · intro cfg tmax rng
    constructor <;> simp [World.new]
  · intro W a ph t soff hi hf hn _ _ hT
    exact hT.congr rfl rfl rfl rfl rfl rfl rfl rfl rfl
  · intro W W' a hi hf ha _ _ hT
    obtain ⟨s, e, nm, k, p, -, -, -, -, -, -, rfl⟩ := addLink_ok ha
    refine ⟨hT.run, hT.idle, fun v r hr l hl => ?_, fun v => ?_⟩
    · have := hT.idle v (.inl (hi.s.unfinal hf v)) r hr
      rw [this] at hl; cases hl
    · have : (W.V.log v).filter (·.link.isSome) = [] := by
        rw [List.filter_eq_nil_iff]
        intro r hr; rw [hT.idle v (.inl (hi.s.unfinal hf v)) r hr]; simp
      show ((W.V.log v).filter (·.link.isSome)).IsChain _
      rw [this]; exact List.IsChain.nil
  · intro W W' a hi ha hok _ hT
    obtain ⟨o, d, dep, pref, cache, lp, la, nm, -, -, -, -, -, -, -, -, rfl⟩ := addVehicle_ok ha
    have hst : ∀ v, v ≠ W.nVeh → (W.addVehRes a o d dep pref cache lp la nm).V.state v = W.V.state v ∧
        (W.addVehRes a o d dep pref cache lp la nm).V.log v = W.V.log v ∧
        (W.addVehRes a o d dep pref cache lp la nm).V.link v = W.V.link v ∧
        (W.addVehRes a o d dep pref cache lp la nm).V.x v = W.V.x v ∧
        (W.addVehRes a o d dep pref cache lp la nm).V.xOld v = W.V.xOld v := by
      intro v hv
      refine ⟨upd_ne _ _ hv, upd_ne _ _ hv, upd_ne _ _ hv, upd_ne _ _ hv, upd_ne _ _ hv⟩
    have hnw : (W.addVehRes a o d dep pref cache lp la nm).V.state W.nVeh = .home ∧
        (W.addVehRes a o d dep pref cache lp la nm).V.log W.nVeh = [] := ⟨upd_same _ _ _, upd_same _ _ _⟩
    refine ⟨fun v hv => ?_, fun v hv => ?_, fun v => ?_, fun v => ?_⟩ <;> by_cases e : v = W.nVeh
    · subst e; rw [hnw.1] at hv; cases hv
    · obtain ⟨a1, a2, a3, a4, a5⟩ := hst v e
      rw [a1] at hv; rw [a2, a3, a4, a5]; exact hT.run v hv
    · subst e; rw [hnw.2]; simp
    · obtain ⟨a1, a2, -⟩ := hst v e
      rw [a1] at hv; rw [a2]; exact hT.idle v hv
    · subst e; rw [hnw.2]; simp
    · obtain ⟨a1, a2, -⟩ := hst v e
      rw [a2]; intro r hr l hl
      obtain ⟨e1, e2, e3, e4, e5⟩ := hT.rows v r hr l hl
      exact ⟨e1, e2, e3, e4, e5⟩
    · subst e; rw [hnw.2]; simp
    · obtain ⟨a1, a2, -⟩ := hst v e
      rw [a2]; exact hT.chain v
  · intro W tm hi hf _ _ hT
    obtain ⟨ts, tta, fc, fr, la, hr⟩ := finalize_frame W tm
    rw [hr]
    refine ⟨fun v hv => ?_, hT.idle, fun v r hr l hl => ?_, hT.chain⟩
    · have hv : W.V.state v = .run := hv
      rw [hi.s.unfinal hf v] at hv; cases hv
    · have := hT.idle v (.inl (hi.s.unfinal hf v)) r hr
      rw [this] at hl; cases hl
  · intro W W' _ _ _ hs hT
    obtain ⟨_, _, _, _, _, _, _, rfl, -⟩ := hs
    exact hT.congr rfl rfl rfl rfl rfl rfl rfl rfl rfl
  · intro W W' _ _ _ hs hT
    obtain ⟨_, _, _, _, _, _, _, _, _, _, _, _, _, _, _, _, _, _, _, rfl, -⟩ := hs
    exact hT.congr rfl rfl rfl rfl rfl rfl rfl rfl rfl
  · intro W W1 W' hi hf _ hok _ h1 hW hT
    subst hW
    obtain ⟨o1, o2, o3, o4⟩ := hO _ hok.1.1
    exact hT.tick hi hf o4 o1 hok.1.2 hok.2 o3 o2 h1

end UX
