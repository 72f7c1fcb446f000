import Verif.Proofs.EInv

/-! Cumulative counts against the event history. -/

namespace UX
open World

/-- The curve the counters should hold after `k` steps, newest first. -/
def curve (d : ℕ) (f : Event → Option VehId) (tr : List Event) (k : ℕ) : List ℕ :=
  (List.range k).reverse.map (fun i => d * countUpTo f tr i)

theorem curve_succ (d : ℕ) (f : Event → Option VehId) (tr : List Event) (k : ℕ) :
    curve d f tr (k + 1) = (d * countUpTo f tr k) :: curve d f tr k := by
  simp [curve, List.range_succ]

theorem countUpTo_congr {f : Event → Option VehId} {tr : List Event} {i j : ℕ}
    (h : ∀ e ∈ tr, (e.at ≤ i ↔ e.at ≤ j)) : countUpTo f tr i = countUpTo f tr j := by
  unfold countUpTo
  apply List.countP_congr
  intro e he
  simp [h e he]

/-- Appending the point of a new step before anything happened in it. -/
theorem pushCum_curve {d : ℕ} {f : Event → Option VehId} {tr : List Event} {k : ℕ}
    (h : ∀ e ∈ tr, e.at < k) : pushCum (curve d f tr k) = curve d f tr (k + 1) := by
  cases k with
  | zero =>
    have : tr = [] := by
      cases tr with
      | nil => rfl
      | cons e t => exact absurd (h e (by simp)) (by omega)
    subst this
    simp [curve, pushCum, countUpTo]
  | succ k =>
    rw [curve_succ d f tr (k + 1), curve_succ d f tr k]
    simp only [pushCum, List.cons.injEq, and_self, and_true]
    rw [countUpTo_congr]
    intro e he
    have := h e he
    constructor <;> omega

theorem curve_cons_none {d : ℕ} {f : Event → Option VehId} {tr : List Event} {k : ℕ} {e : Event}
    (h : f e = none) : curve d f (e :: tr) k = curve d f tr k := by
  unfold curve countUpTo
  simp [h]

theorem curve_cons_some {d : ℕ} {f : Event → Option VehId} {tr : List Event} {k : ℕ} {e : Event}
    {v : VehId} (h : f e = some v) (hk : e.at = k) :
    curve d f (e :: tr) (k + 1) = bumpHead d (curve d f tr (k + 1)) := by
  rw [curve_succ, curve_succ]
  simp only [bumpHead, List.cons.injEq]
  constructor
  · unfold countUpTo
    simp [h, hk, Nat.mul_add]
  · unfold curve countUpTo
    apply List.map_congr_left
    intro i hi
    simp at hi
    simp [h, hk, hi]

/-- The counters agree with the history. `b = 1` once the point of the current step was appended. -/
structure CInv (b : ℕ) (W : World) : Prop where
  arr : ∀ l, l < W.nLinks → W.L.cumArr l = curve W.cfg.deltan (enters l) W.trace (W.T + b)
  dep : ∀ l, l < W.nLinks → W.L.cumDep l = curve W.cfg.deltan (leaves l) W.trace (W.T + b)
  tt : ∀ l, l < W.nLinks → (W.L.ttInstant l).length = W.T + b
  lt : ∀ e ∈ W.trace, e.at < W.T + b
  unfinal : W.finalized = false → W.T = 0 ∧ W.trace = []

namespace CInv

theorem congr {b : ℕ} {W W' : World} (h : CInv b W) (h1 : W'.L.cumArr = W.L.cumArr)
    (h2 : W'.L.cumDep = W.L.cumDep) (h3 : W'.trace = W.trace) (h4 : W'.T = W.T)
    (h5 : W'.finalized = W.finalized) (h6 : W'.nLinks = W.nLinks) (h7 : W'.cfg = W.cfg)
    (h8 : W'.L.ttInstant = W.L.ttInstant) : CInv b W' := by
  cases h
  constructor
  · rw [h1, h3, h4, h6, h7]; assumption
  · rw [h2, h3, h4, h6, h7]; assumption
  · rw [h8, h4, h6]; assumption
  · rw [h3, h4]; assumption
  · rw [h3, h4, h5]; assumption

/-- The link phase appends one point. -/
theorem links {W W' : World} (hf : W.finalized = true) (h : CInv 0 W)
    (hl : (List.range W.nLinks).foldlM linkUpdate W = .ok W') : CInv 1 W' := by
  have := foldlM_inv_pre (P := fun (pre : List ℕ) (W1 : World) => W1.trace = W.trace ∧ W1.T = W.T ∧
      W1.finalized = true ∧ W1.nLinks = W.nLinks ∧ W1.cfg = W.cfg ∧
      ∀ l, l < W.nLinks →
        W1.L.cumArr l = curve W.cfg.deltan (enters l) W.trace (W.T + if l ∈ pre then 1 else 0) ∧
        W1.L.cumDep l = curve W.cfg.deltan (leaves l) W.trace (W.T + if l ∈ pre then 1 else 0) ∧
        (W1.L.ttInstant l).length = W.T + if l ∈ pre then 1 else 0)
    (l := List.range W.nLinks) (f := linkUpdate) ?_
    ⟨rfl, rfl, hf, rfl, rfl, fun l hl => by simpa using ⟨h.arr l hl, h.dep l hl, h.tt l hl⟩⟩ hl
  · obtain ⟨h1, h2, h3, h4, h5, h6⟩ := this
    refine ⟨fun l hl => ?_, fun l hl => ?_, fun l hl => ?_, ?_, fun h => ?_⟩
    · rw [h4] at hl
      have := (h6 l hl).1
      rw [if_pos (by simpa using hl)] at this
      rw [this, h5, h1, h2]
    · rw [h4] at hl
      have := (h6 l hl).2.1
      rw [if_pos (by simpa using hl)] at this
      rw [this, h5, h1, h2]
    · rw [h4] at hl
      have := (h6 l hl).2.2
      rw [if_pos (by simpa using hl)] at this
      rw [this, h2]
    · rw [h1, h2]
      intro e he
      have := h.lt e he
      omega
    · rw [h3] at h; cases h
  · rintro pre l post W1 W2 hpre ⟨h1, h2, h3, h4, h5, h6⟩ hu
    have hnd : (pre ++ l :: post).Nodup := hpre ▸ List.nodup_range
    have hlp : l ∉ pre := by
      intro hm
      exact (List.nodup_append.mp hnd).2.2 _ hm _ (by simp) rfl
    unfold linkUpdate at hu
    dsimp only at hu
    split at hu
    · simp at hu
    · simp only [Except.ok.injEq] at hu
      subst hu
      refine ⟨h1, h2, h3, h4, h5, fun k hk => ?_⟩
      simp only [refillCaps, upd_apply]
      by_cases hkl : k = l
      · subst hkl
        have := h6 k hk
        simp only [hlp, if_false, Nat.add_zero] at this
        simp only [if_true, List.mem_append, List.mem_singleton, or_true]
        rw [this.1, this.2.1]
        exact ⟨pushCum_curve h.lt, pushCum_curve h.lt, by rw [List.length_cons, this.2.2]⟩
      · simp only [if_neg hkl, List.mem_append, List.mem_singleton, hkl, or_false]
        exact h6 k hk

theorem prim {act : Act} {W W' : World} (hc : Core W) (hp : Prim act W W') (ha : ¬ isLinkTick act)
    (h : CInv 1 W) : CInv 1 W' := by
  have hs := hp.shape hc.s
  clear hp
  have hfin : W.finalized = true := hc.fin
  cases hs with
  | linkTick => exact absurd trivial ha
  | nodeTick => exact h.congr rfl rfl rfl rfl rfl rfl rfl rfl
  | clearInc => exact h.congr rfl rfl rfl rfl rfl rfl rfl rfl
  | carfollow => exact h.congr rfl rfl rfl rfl rfl rfl rfl rfl
  | routing => exact h.congr rfl rfl rfl rfl rfl rfl rfl rfl
  | record => exact h.congr rfl rfl rfl rfl rfl rfl rfl rfl
  | noWait => exact h
  | advance => exact h.congr rfl rfl rfl rfl rfl rfl rfl rfl
  | event => exact h.congr rfl rfl rfl rfl rfl rfl rfl rfl
  | nextDest => exact h.congr rfl rfl rfl rfl rfl rfl rfl rfl
  | flagEnd => exact h.congr rfl rfl rfl rfl rfl rfl rfl rfl
  | flagAbort => exact h.congr rfl rfl rfl rfl rfl rfl rfl rfl
  | choose => exact h.congr rfl rfl rfl rfl rfl rfl rfl rfl
  | pushInc => exact h.congr rfl rfl rfl rfl rfl rfl rfl rfl
  | startWait =>
    refine ⟨fun k hk => ?_, fun k hk => ?_, h.tt, ?_, fun hf => by rw [hfin] at hf; cases hf⟩
    · rw [curve_cons_none rfl]; exact h.arr k hk
    · rw [curve_cons_none rfl]; exact h.dep k hk
    · simp only [List.mem_cons, forall_eq_or_imp]
      exact ⟨by simp [Event.at], h.lt⟩
  | @depart _ n v t cs l o hn hq hcs hl hout hent hcum hlead =>
    refine ⟨fun k hk => ?_, fun k hk => ?_, h.tt, ?_, fun hf => by rw [hfin] at hf; cases hf⟩
    · have := h.arr k hk
      simp only [upd_apply, World.dn]
      by_cases hkl : l = k
      · subst hkl
        rw [curve_cons_some (v := v) (k := W.T) (by simp [enters]) rfl, ← this]; simp
      · rw [curve_cons_none (by simp [enters, hkl]), ← this]; simp [Ne.symm hkl]
    · rw [curve_cons_none rfl]; exact h.dep k hk
    · simp only [List.mem_cons, forall_eq_or_imp]
      exact ⟨by simp [Event.at], h.lt⟩
  | @move _ n v a b t o q nl fc tta hn hinc hla hv hr hsig hout hfl hent hcd hca hu hlead hnl hq hfc htta =>
    refine ⟨fun k hk => ?_, fun k hk => ?_, h.tt, ?_, fun hf => by rw [hfin] at hf; cases hf⟩
    · have := h.arr k hk
      simp only [upd_apply, World.dn]
      by_cases hkl : b = k
      · subst hkl
        rw [curve_cons_some (v := v) (k := W.T) (by simp [enters]) rfl, ← this]; simp
      · rw [curve_cons_none (by simp [enters, hkl]), ← this]; simp [Ne.symm hkl]
    · have := h.dep k hk
      simp only [upd_apply, World.dn]
      by_cases hkl : a = k
      · subst hkl
        rw [curve_cons_some (v := v) (k := W.T) (by simp [leaves]) rfl, ← this]; simp
      · rw [curve_cons_none (by simp [leaves, hkl]), ← this]; simp [Ne.symm hkl]
    · simp only [List.mem_cons, forall_eq_or_imp]
      exact ⟨by simp [Event.at], h.lt⟩
  | @endTrip _ v l t log s c lt tta hl hv hf hcd hrun hliv hlt hlog htta =>
    refine ⟨fun k hk => ?_, fun k hk => ?_, h.tt, ?_, fun hf => by rw [hfin] at hf; cases hf⟩
    · rw [curve_cons_none rfl]; exact h.arr k hk
    · have := h.dep k hk
      simp only [upd_apply, World.dn]
      by_cases hkl : l = k
      · subst hkl
        rw [curve_cons_some (v := v) (k := W.T) (by simp [leaves]) rfl, ← this]; simp
      · rw [curve_cons_none (by simp [leaves, hkl]), ← this]; simp [Ne.symm hkl]
    · simp only [List.mem_cons, forall_eq_or_imp]
      exact ⟨by simp [Event.at], h.lt⟩

theorem step {W W1 : World} (hi : Inv W) (hf : W.finalized = true) (h : W.step = .ok W1) (h0 : CInv 0 W) :
    CInv 1 W1 := by
  obtain ⟨A, B, C, D, E, F, hp, rfl⟩ := step_phases (hi.core hf) h
  have hA : CInv 1 A := links hf h0 hp.p1
  have hB : CInv 1 B := hp.s2.inv_core (fun a W W' ha hc hp h => h.prim hc hp
    (by cases a <;> simp_all [isGen, isLinkTick])) hp.c1 hA
  have hC : CInv 1 C := hp.s3.inv_core (fun a W W' ha hc hp h => h.prim hc hp
    (by cases a <;> simp_all [isTrAny, isLinkTick])) hp.c2 hB
  have hD : CInv 1 D := hp.s4.inv_core (fun a W W' ha hc hp h => h.prim hc hp
    (by cases a <;> simp_all [isCf, isLinkTick])) hp.c3 hC
  have hE : CInv 1 E := hp.s5.inv_core (fun a W W' ha hc hp h => h.prim hc hp
    (by have := isUpdAny_late a ha; cases a <;> simp_all [isLate, isLinkTick])) hp.c4 hD
  have hF : CInv 1 F := hp.s6.inv_core (fun a W W' ha hc hp h => h.prim hc hp
    (by cases a <;> simp_all [isRouting, isLinkTick])) hp.c5 hE
  exact hF.congr rfl rfl rfl rfl rfl rfl rfl rfl

theorem reach {OK : World → Prop} {W : World} (h : Reachable OK W) : CInv 0 W := by
  refine Reachable.induct (P := CInv 0) ?_ ?_ ?_ ?_ ?_ ?_ ?_ ?_ h
  · intro cfg tmax rng
    constructor <;> simp [World.new]
  · intro W a ph t soff hi hf hn _ _ hT
    exact hT.congr rfl rfl rfl rfl rfl rfl rfl rfl
  · intro W W' a hi hf ha _ _ hT
    obtain ⟨s, e, nm, k, p, -, -, -, -, -, -, rfl⟩ := addLink_ok ha
    obtain ⟨h1, h2⟩ := hT.unfinal hf
    have hA := hT.arr
    have hD := hT.dep
    have hI := hT.tt
    refine ⟨fun l hl => ?_, fun l hl => ?_, fun l hl => ?_, hT.lt, hT.unfinal⟩
    · simp only [addLinkRes, upd_apply] at hl ⊢
      split
      · simp [h1, curve]
      · rename_i hne; exact hA l (Nat.lt_of_le_of_ne (Nat.le_of_lt_succ hl) hne)
    · simp only [addLinkRes, upd_apply] at hl ⊢
      split
      · simp [h1, curve]
      · rename_i hne; exact hD l (Nat.lt_of_le_of_ne (Nat.le_of_lt_succ hl) hne)
    · simp only [addLinkRes, upd_apply] at hl ⊢
      split
      · simp [h1]
      · rename_i hne; exact hI l (Nat.lt_of_le_of_ne (Nat.le_of_lt_succ hl) hne)
  · intro W W' a hi ha _ _ hT
    obtain ⟨o, d, dep, pref, cache, lp, la, nm, -, -, -, -, -, -, -, -, rfl⟩ := addVehicle_ok ha
    exact hT.congr rfl rfl rfl rfl rfl rfl rfl rfl
  · intro W tm hi hf _ _ hT
    obtain ⟨ts, tta, fc, fr, la, hr⟩ := finalize_frame W tm
    obtain ⟨h1, h2⟩ := hT.unfinal hf
    rw [hr]
    have hA := hT.arr
    have hD := hT.dep
    have hI := hT.tt
    rw [h1] at hA hD hI
    exact ⟨hA, hD, hI, by simp [h2], fun h => by simp at h⟩
  · intro W W' _ _ _ hs hT
    obtain ⟨_, _, _, _, _, _, _, rfl, -⟩ := hs
    exact hT.congr rfl rfl rfl rfl rfl rfl rfl rfl
  · intro W W' _ _ _ hs hT
    obtain ⟨_, _, _, _, _, _, _, _, _, _, _, _, _, _, _, _, _, _, _, rfl, -⟩ := hs
    exact hT.congr rfl rfl rfl rfl rfl rfl rfl rfl
  · intro W W1 W' hi hf _ _ _ h1 hW hT
    subst hW
    obtain ⟨hA, hD, hI, hL, -⟩ := hT.step hi hf h1
    have hf1 : W1.finalized = true := by
      obtain ⟨W6, hs, rfl⟩ := step_star (hi.core hf) h1
      exact hs.static.finalized.trans hf
    refine ⟨hA, hD, hI, hL, fun h => by rw [hf1] at h; cases h⟩

end CInv
end UX
