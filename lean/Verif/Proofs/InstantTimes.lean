import Verif.Spec.LinkTimes
import Verif.Proofs.TravelTime
import Verif.Props.Kinematics

/-! # Instantaneous travel times of links (C53) -/

namespace UX
open World

/-- The entry `linkUpdate` appends. -/
def InstantSpec (W : World) (l : LinkId) (q : ℚ) : Prop :=
  (W.T % W.cfg.ttInterval = 0 → q = instantTime W l) ∧
    (W.T % W.cfg.ttInterval ≠ 0 → ∃ t, W.L.ttInstant l = q :: t)

theorem newTtInstant_spec {W : World} (hex : W.cfg.fl = id) {l : LinkId} {q : ℚ} (h : W.newTtInstant l = .ok q) :
    InstantSpec W l q := by
  have hfl : ∀ q, W.fl q = q := fun q => by unfold World.fl; rw [hex]; rfl
  have hsp : W.linkSpeed l = meanSpeed W l := by
    unfold linkSpeed meanSpeed; rw [hfl]
  unfold newTtInstant at h
  constructor
  · intro hT
    rw [if_pos hT, hsp] at h
    simp only [hfl] at h
    unfold instantTime
    split at h <;> rename_i hc
    · rw [if_pos hc]; cases h; rfl
    · rw [if_neg hc]; cases h; rfl
  · intro hT
    rw [if_neg hT] at h
    cases hh : W.L.ttInstant l with
    | nil => rw [hh] at h; cases h
    | cons a t => rw [hh] at h; cases h; exact ⟨t, rfl⟩

theorem links_instant {W W' : World} (hex : W.cfg.fl = id)
    (hl : (List.range W.nLinks).foldlM linkUpdate W = .ok W') : ∀ l, l < W.nLinks →
      ∃ q, W'.L.ttInstant l = q :: W.L.ttInstant l ∧ InstantSpec W l q := by
  have := foldlM_inv_pre (P := fun (pre : List ℕ) (W1 : World) => W1.T = W.T ∧ W1.cfg = W.cfg ∧ W1.V = W.V ∧
      W1.L.vehs = W.L.vehs ∧ W1.L.u = W.L.u ∧ W1.L.length = W.L.length ∧
      (∀ l, l ∉ pre → W1.L.ttInstant l = W.L.ttInstant l) ∧
      ∀ l, l ∈ pre → ∃ q, W1.L.ttInstant l = q :: W.L.ttInstant l ∧ InstantSpec W l q)
    (l := List.range W.nLinks) (f := linkUpdate) ?_
    ⟨rfl, rfl, rfl, rfl, rfl, rfl, fun _ _ => rfl, fun l hl => by cases hl⟩ hl
  · obtain ⟨-, -, -, -, -, -, -, h⟩ := this
    exact fun l hl => h l (List.mem_range.2 hl)
  · rintro pre l post W1 W2 hpre ⟨h1, h2, h3, h4, h5, h6, h7, h8⟩ hu
    have hnd : (pre ++ l :: post).Nodup := hpre ▸ List.nodup_range
    have hlp : l ∉ pre := fun hm => (List.nodup_append.mp hnd).2.2 _ hm _ (by simp) rfl
    unfold linkUpdate at hu
    dsimp only at hu
    split at hu
    · simp at hu
    · rename_i q hq
      simp only [Except.ok.injEq] at hu
      subst hu
      have hs := newTtInstant_spec (W := W1.refillCaps l) (by rw [← hex, ← h2]; rfl) hq
      have hs' : InstantSpec W l q := by
        have em : meanSpeed (W1.refillCaps l) l = meanSpeed W l := by
          unfold meanSpeed
          show (if W1.L.vehs l = [] then W1.L.u l else ((W1.L.vehs l).map W1.V.v).sum / (W1.L.vehs l).length) = _
          rw [h3, h4, h5]
        have ei : instantTime (W1.refillCaps l) l = instantTime W l := by
          unfold instantTime
          rw [em]
          show (if 0 < meanSpeed W l then W1.L.length l / meanSpeed W l else W1.L.length l / (W1.L.u l / 100)) = _
          rw [h5, h6]
        unfold InstantSpec at hs ⊢
        rw [ei] at hs
        simp only [refillCaps] at hs
        rw [h1, h2, h7 l hlp] at hs
        exact hs
      refine ⟨h1, h2, h3, h4, h5, h6, fun k hk => ?_, fun k hk => ?_⟩
      · simp only [List.mem_append, List.mem_singleton, not_or] at hk
        simp only [refillCaps, upd_apply, if_neg hk.2]
        exact h7 k hk.1
      · simp only [refillCaps, upd_apply]
        split
        · rename_i e; subst e
          exact ⟨q, by rw [h7 k hlp], hs'⟩
        · rename_i e
          refine h8 k ?_
          simpa [e] using hk

theorem instant_keep {act : Act} {W W' : World} (hc : Core W) (hp : Prim act W W') (ha : ¬ isLinkTick act) :
    W'.L.ttInstant = W.L.ttInstant := by
  have hs := hp.shape hc.s
  clear hp
  cases hs with
  | linkTick => exact absurd trivial ha
  | _ => rfl

theorem PStar.instant {A : Act → Prop} {W W' : World} (h : PStar A W W') (hA : ∀ a, A a → ¬ isLinkTick a)
    (hc : Core W) : W'.L.ttInstant = W.L.ttInstant :=
  h.inv_core (P := fun X => X.L.ttInstant = W.L.ttInstant)
    (fun a _ _ ha hc hp hz => (instant_keep hc hp (hA a ha)).trans hz) hc rfl

theorem tick_instant {W W' : World} (hi : Inv W) (hf : W.finalized = true) (hex : W.cfg.fl = id)
    (ht : W.tick = .ok W') {l : LinkId} (hl : l < W.nLinks) :
    ∃ q, W'.L.ttInstant l = q :: W.L.ttInstant l ∧ InstantSpec W l q := by
  obtain ⟨X, h1, rfl⟩ := tick_ok ht
  obtain ⟨W1, W2, W3, W4, W5, W6, hP, rfl⟩ := step_phases (hi.core hf) h1
  have h := links_instant hex hP.p1 l hl
  have e2 := hP.s2.instant (fun a h h' => by cases a <;> simp_all [isGen, isLinkTick]) hP.c1
  have e3 := hP.s3.instant (fun a h h' => by cases a <;> simp_all [isTrAny, isLinkTick]) hP.c2
  have e4 := hP.s4.instant (fun a h h' => by cases a <;> simp_all [isCf, isLinkTick]) hP.c3
  have e5 := hP.s5.instant (fun a h h' => by cases a <;> simp_all [isUpdAny, isUpd, isLinkTick]) hP.c4
  have e6 := hP.s6.instant (fun a h h' => by cases a <;> simp_all [isRouting, isLinkTick]) hP.c5
  have e : W6.L.ttInstant = W1.L.ttInstant := by rw [e6, e5, e4, e3, e2]
  show ∃ q, W6.L.ttInstant l = _ ∧ _
  rw [e]
  exact h

theorem sum_le_card {xs : List VehId} {f : VehId → ℚ} {u : ℚ} (h : ∀ v ∈ xs, f v ≤ u) :
    (xs.map f).sum ≤ xs.length * u := by
  induction xs with
  | nil => simp
  | cons a t ih =>
    have h1 := h a (by simp)
    have h2 := ih (fun v hv => h v (by simp [hv]))
    simp only [List.map_cons, List.sum_cons, List.length_cons]
    push_cast
    linarith

theorem instantTime_ge {W : World} {l : LinkId} (hu : 0 < W.L.u l) (hlen : 0 ≤ W.L.length l)
    (hv : ∀ v ∈ W.L.vehs l, W.V.v v ≤ W.L.u l) : W.L.length l / W.L.u l ≤ instantTime W l := by
  unfold instantTime
  split <;> rename_i hc
  · refine div_le_div_of_nonneg_left hlen hc ?_
    unfold meanSpeed
    split <;> rename_i he
    · exact le_rfl
    · have hp : (0 : ℚ) < (W.L.vehs l).length := by
        exact_mod_cast List.length_pos_iff.2 he
      rw [div_le_iff₀ hp, mul_comm]
      exact sum_le_card hv
  · exact div_le_div_of_nonneg_left hlen (by positivity) (by linarith)

/-- Speeds do not exceed the free-flow speeds, recorded times are not below the free-flow times. -/
structure IInv (u0 : LinkId → ℚ) (W : World) : Prop where
  slow : ∀ v l, W.V.link v = some l → W.V.v v ≤ u0 l
  ge : ∀ l, l < W.nLinks → ∀ q ∈ W.L.ttInstant l, W.L.length l / u0 l ≤ q

theorem IInv.reach {u0} {OK : World → Prop} (hO : ∀ W, OK W → ExactOK u0 W) (hdt : ∀ W, OK W → 0 < W.dt)
    {W : World} (h : Reachable OK W) : IInv u0 W := by
  have h' := h.strengthen (Q := Reachable OK) (fun W h => h)
  clear h
  refine Reachable.induct (P := IInv u0) ?_ ?_ ?_ ?_ ?_ ?_ ?_ ?_ h'
  · intro cfg tmax rng
    constructor <;> simp [World.new]
  · intro W a ph t soff hi hf hn _ _ hT
    exact ⟨hT.slow, hT.ge⟩
  · intro W W' a hi hf ha _ _ hT
    obtain ⟨s, e, nm, k, p, -, -, -, -, -, -, rfl⟩ := addLink_ok ha
    refine ⟨hT.slow, fun l hl q hq => ?_⟩
    have h1 := hT.ge l
    simp only [addLinkRes, upd_apply] at hq hl ⊢
    split at hq
    · cases hq
    · rename_i e
      rw [if_neg e]
      exact h1 (lt_of_le_of_ne (Nat.lt_succ_iff.1 hl) e) q hq
  · intro W W' a hi ha hok _ hT
    obtain ⟨o, d, dep, pref, cache, lp, la, nm, -, -, -, -, -, -, -, -, rfl⟩ := addVehicle_ok ha
    refine ⟨fun v l => ?_, hT.ge⟩
    have h1 := hT.slow v l
    simp only [addVehRes, upd_apply]
    grind
  · intro W tm hi hf hok hok' hT
    obtain ⟨ts, tta, fc, fr, la, hr⟩ := finalize_frame W tm
    rw [hr]
    exact ⟨hT.slow, hT.ge⟩
  · intro W W' _ _ _ hs hT
    obtain ⟨_, _, _, _, _, _, _, rfl, -⟩ := hs
    exact ⟨hT.slow, hT.ge⟩
  · intro W W' hi _ _ hs hT
    obtain ⟨_, _, _, _, _, _, _, _, _, _, _, _, _, _, _, dpl, _, _, _, rfl, hd⟩ := hs
    exact ⟨hT.slow, hT.ge⟩
  · intro W W1 W' hi hf _ hok hok' h1 hW hT
    have ht : W.tick = .ok W' := by
      unfold tick
      rw [h1, hW]; rfl
    have hE := hO W hok.1
    have hS := hi.s
    obtain ⟨W6, hst, hW1⟩ := step_star (hi.core hf) h1
    have hst := hst.static
    have eu : W'.L.u = W.L.u := by rw [hW, hW1]; exact hst.u
    have elen : W'.L.length = W.L.length := by rw [hW, hW1]; exact hst.length
    have enl : W'.nLinks = W.nLinks := by rw [hW, hW1]; exact hst.nLinks
    constructor
    · intro v l hl
      have hS' := hok'.2.inv.s
      have hr := (hS'.link_run v l hl).1
      obtain ⟨k, hk, -, hle⟩ := C29_speed (fun W h => (hO W h).phys) hok.2 hE.exact (hdt W hok.1) hf ht hr
      rw [hl] at hk
      obtain rfl : l = k := by simpa using hk
      have hlt : l < W'.nLinks := (hS'.link_run v l hl).2.2
      rw [(hO W' hok'.1).u l hlt |>.1] at hle
      exact hle
    · intro l hl q hq
      rw [enl] at hl
      rw [elen]
      obtain ⟨r, hr, hsp⟩ := tick_instant hi hf hE.exact ht hl
      rw [hr] at hq
      have hu := hE.u l hl
      rcases List.mem_cons.1 hq with rfl | hq
      · by_cases hT' : W.T % W.cfg.ttInterval = 0
        · rw [hsp.1 hT', ← hu.1]
          refine instantTime_ge (by rw [hu.1]; exact hu.2) (hE.phys.len l hl).1 ?_
          intro v hv
          rw [hu.1]
          exact hT.slow v l (hS.vehs_link l v hv)
        · obtain ⟨t, ht⟩ := hsp.2 hT'
          exact hT.ge l hl q (by rw [ht]; simp)
      · exact hT.ge l hl q hq

end UX
