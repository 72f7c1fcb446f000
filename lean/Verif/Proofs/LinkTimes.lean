import Verif.Spec.LinkTimes
import Verif.Proofs.TravelTime

/-! # Recorded actual travel times of links (C54), exact arithmetic -/

namespace UX
open World

structure LTimes (ff : LinkId → ℚ) (W : World) : Prop where
  ex : W.cfg.fl = id
  dt : W.cfg.deltat ≠ 0
  ent : ∀ v l, W.V.link v = some l → ∃ T0, lastTake v W.trace = some (T0, l) ∧
    W.V.linkArrTime v = T0 * W.cfg.deltat
  len : ∀ l, l < W.nLinks → (W.L.ttActual l).length = W.tsize
  act : ∀ l, l < W.nLinks → ∀ i, i < W.tsize →
    (W.L.ttActual l)[i]? = some (timeAt (ff l) W.cfg.deltat (stays l W.trace) i)

namespace LTimes

theorem congr {ff} {W W' : World} (h : LTimes ff W) (h0 : W'.cfg = W.cfg) (h1 : W'.V.link = W.V.link)
    (h2 : W'.trace = W.trace) (h3 : W'.V.linkArrTime = W.V.linkArrTime) (h4 : W'.L.ttActual = W.L.ttActual)
    (h5 : W'.nLinks = W.nLinks) (h6 : W'.tsize = W.tsize) : LTimes ff W' := by
  obtain ⟨a1, a2, a3, a4, a5⟩ := h
  constructor
  · rw [h0]; exact a1
  · rw [h0]; exact a2
  · rw [h1, h2, h3, h0]; exact a3
  · rw [h4, h5, h6]; exact a4
  · rw [h4, h5, h6, h2, h0]; exact a5

theorem pyInt_step {d : ℚ} (hd : d ≠ 0) (T0 : ℕ) : pyInt (T0 * d / d) = T0 := by
  rw [mul_div_assoc, div_self hd, mul_one]
  unfold pyInt
  split <;> simp_all

theorem slice_get {xs : List ℚ} {k i : ℕ} {q : ℚ} (hi : i < xs.length) :
    (sliceFrom xs (k : ℤ) q)[i]? = if k ≤ i then some q else xs[i]? := by
  unfold sliceFrom
  simp only [Int.natCast_nonneg, if_true, Int.toNat_natCast]
  by_cases h : k ≤ i
  · rw [if_pos h, List.getElem?_append_right (by simp; omega), List.getElem?_replicate]
    rw [if_pos]
    simp only [List.length_take]
    omega
  · rw [if_neg h, List.getElem?_append_left (by simp; omega), List.getElem?_take, if_pos (by omega)]

theorem slice_length {xs : List ℚ} {k : ℕ} {q : ℚ} : (sliceFrom xs (k : ℤ) q).length = xs.length := by
  unfold sliceFrom
  simp
  omega

theorem timeAt_cons (ff dt : ℚ) (a b : ℕ) (ss : List (ℕ × ℕ)) (i : ℕ) :
    timeAt ff dt ((a, b) :: ss) i = if a ≤ i then ((b : ℚ) - a) * dt else timeAt ff dt ss i := by
  unfold timeAt
  by_cases h : a ≤ i
  · simp [h]
  · simp [h]

theorem prim {ff} {act : Act} {W W' : World} (hc : Core W) (hp : Prim act W W') (h : LTimes ff W) :
    LTimes ff W' := by
  have hs := hp.shape hc.s
  clear hp
  have hnow : W.now = W.T * W.cfg.deltat := by
    unfold World.now World.fl World.dt; rw [h.ex]; rfl
  cases hs with
  | @depart _ n v t cs l o hn hq hcs hl hout hent hcum hlead =>
    obtain ⟨a1, a2, a3, a4, a5⟩ := h
    refine ⟨a1, a2, fun u k hu => ?_, a4, a5⟩
    dsimp only at hu ⊢
    by_cases huv : u = v
    · subst huv
      rw [upd_same] at hu ⊢
      obtain rfl : l = k := by simpa using hu
      exact ⟨W.T, by simp [lastTake, takesAt], hnow⟩
    · rw [upd_ne _ _ huv] at hu ⊢
      obtain ⟨T0, h1, h2⟩ := a3 u k hu
      exact ⟨T0, by rw [TT.lastTake_other (by simp [takesAt, Ne.symm huv])]; exact h1, h2⟩
  | @move _ n v a b t o q nl fc tta hn hinc hla hv hr hsig hout hfl hent hcd hca hu hlead hnl hq hfc htta =>
    obtain ⟨a1, a2, a3, a4, a5⟩ := h
    obtain ⟨T0, h1, h2⟩ := a3 v a hla
    have hfl' : ∀ q, W.fl q = q := fun q => by unfold World.fl; rw [a1]; rfl
    have hidx : pyInt (W.fl (W.V.linkArrTime v / W.dt)) = T0 := by
      rw [hfl', h2]; exact pyInt_step a2 T0
    have hst : ∀ l, stays l (Event.pass W.T v n a b (W.N.phase n) :: W.trace) =
        if a = l then (T0, W.T) :: stays l W.trace else stays l W.trace := by
      intro l; simp only [stays, h1]; split <;> simp
    rw [hidx, hfl', hnow, h2] at htta
    refine ⟨a1, a2, fun u k hu => ?_, fun l hl => ?_, fun l hl i hi => ?_⟩
    · dsimp only at hu ⊢
      by_cases huv : u = v
      · subst huv
        rw [upd_same] at hu ⊢
        obtain rfl : b = k := by simpa using hu
        exact ⟨W.T, by simp [lastTake, takesAt], hnow⟩
      · rw [upd_ne _ _ huv] at hu ⊢
        obtain ⟨T0, h1, h2⟩ := a3 u k hu
        exact ⟨T0, by rw [TT.lastTake_other (by simp [takesAt, Ne.symm huv])]; exact h1, h2⟩
    · show (tta l).length = W.tsize
      rw [htta, upd_apply]
      split
      · rename_i e; subst e; rw [slice_length]; exact a4 l hl
      · exact a4 l hl
    · show (tta l)[i]? = some (timeAt (ff l) W.cfg.deltat (stays l (Event.pass W.T v n a b (W.N.phase n) :: W.trace)) i)
      rw [hst, htta, upd_apply]
      by_cases e : l = a
      · subst e
        rw [if_pos rfl, if_pos rfl, slice_get (by rw [a4 l hl]; exact hi), timeAt_cons]
        split
        · congr 1; ring
        · exact a5 l hl i hi
      · rw [if_neg e, if_neg (Ne.symm e)]
        exact a5 l hl i hi
  | @endTrip _ v a t log s c lt tta hla hv hf hcd hrun hliv hlt hlog htta =>
    obtain ⟨a1, a2, a3, a4, a5⟩ := h
    obtain ⟨T0, h1, h2⟩ := a3 v a hla
    have hfl' : ∀ q, W.fl q = q := fun q => by unfold World.fl; rw [a1]; rfl
    have hidx : pyInt (W.fl (W.V.linkArrTime v / W.dt)) = T0 := by
      rw [hfl', h2]; exact pyInt_step a2 T0
    have hst : ∀ l, stays l (Event.finish W.T v a (W.V.flagAborted v) :: W.trace) =
        if a = l then (T0, W.T + 1) :: stays l W.trace else stays l W.trace := by
      intro l; simp only [stays, h1]; split <;> simp
    rw [hidx, hfl', hfl', h2] at htta
    refine ⟨a1, a2, fun u k hu => ?_, fun l hl => ?_, fun l hl i hi => ?_⟩
    · dsimp only at hu ⊢
      by_cases huv : u = v
      · subst huv
        rw [upd_same] at hu; cases hu
      · rw [upd_ne _ _ huv] at hu
        obtain ⟨T0, h1, h2⟩ := a3 u k hu
        exact ⟨T0, by rw [TT.lastTake_other rfl]; exact h1, h2⟩
    · show (tta l).length = W.tsize
      rw [htta, upd_apply]
      split
      · rename_i e; subst e; rw [slice_length]; exact a4 l hl
      · exact a4 l hl
    · show (tta l)[i]? = some (timeAt (ff l) W.cfg.deltat (stays l (Event.finish W.T v a (W.V.flagAborted v) :: W.trace)) i)
      rw [hst, htta, upd_apply]
      by_cases e : l = a
      · subst e
        rw [if_pos rfl, if_pos rfl, slice_get (by rw [a4 l hl]; exact hi), timeAt_cons]
        split
        · congr 1
          show _ = _ * W.dt
          push_cast
          unfold World.dt
          ring
        · exact a5 l hl i hi
      · rw [if_neg e, if_neg (Ne.symm e)]
        exact a5 l hl i hi
  | @startWait _ v hliv hs hd =>
    obtain ⟨a1, a2, a3, a4, a5⟩ := h
    refine ⟨a1, a2, fun u k hu => ?_, a4, a5⟩
    obtain ⟨T0, h1, h2⟩ := a3 u k hu
    exact ⟨T0, by rw [TT.lastTake_other rfl]; exact h1, h2⟩
  | _ => exact h.congr rfl rfl rfl rfl rfl rfl rfl

theorem api {ff} {W W' : World} (hi : Inv W) (hf : W.finalized = true) (hs : ApiStep W W') (h : LTimes ff W) :
    LTimes ff W' ∧ W'.finalized = true := by
  rcases hs.kinds with ⟨hf', _⟩ | ⟨hf', _⟩ | ⟨a, ha⟩ | ⟨hf', _⟩ | ⟨_, hT, ht⟩ | hs | hs
  · rw [hf] at hf'; cases hf'
  · rw [hf] at hf'; cases hf'
  · obtain ⟨o, d, dep, pref, cache, lp, la, nm, -, -, -, -, -, -, -, -, rfl⟩ := addVehicle_ok ha
    obtain ⟨a1, a2, a3, a4, a5⟩ := h
    refine ⟨⟨a1, a2, fun v l => ?_, a4, a5⟩, hf⟩
    have h1 := a3 v l
    simp only [addVehRes, upd_apply]
    split
    · simp
    · exact h1
  · rw [hf] at hf'; cases hf'
  · obtain ⟨W1, h1, rfl⟩ := tick_ok ht
    obtain ⟨W6, hst, rfl⟩ := step_star (hi.core hf) h1
    have := hst.inv_core (P := LTimes ff) (fun a Z Z' _ hc hp hz => hz.prim hc hp) (hi.core hf) h
    exact ⟨this.congr rfl rfl rfl rfl rfl rfl rfl, hst.static.finalized.trans hf⟩
  · obtain ⟨_, _, _, _, _, _, _, rfl, -⟩ := hs
    exact ⟨h.congr rfl rfl rfl rfl rfl rfl rfl, hf⟩
  · obtain ⟨_, _, _, _, _, _, _, _, _, _, _, _, _, _, _, _, _, _, _, rfl, -⟩ := hs
    exact ⟨h.congr rfl rfl rfl rfl rfl rfl rfl, hf⟩

end LTimes

theorem World.finalize_tta' (W : World) (tm : Option ℚ) : (W.finalize tm).L.ttActual = fun l =>
    if l < W.nLinks then List.replicate (W.finalize tm).tsize (W.fl (W.L.length l / W.L.u l))
    else W.L.ttActual l := by
  have key : ∀ (ns : List NodeId) (X : World), (ns.foldl adjustNodeCapacity X).L.ttActual = X.L.ttActual ∧
      (ns.foldl adjustNodeCapacity X).tsize = X.tsize := by
    intro ns
    induction ns with
    | nil => intro X; exact ⟨rfl, rfl⟩
    | cons n ns ih =>
      intro X
      rw [List.foldl_cons, (ih _).1, (ih _).2]
      obtain ⟨fc, fr, la, h⟩ := adjustNodeCapacity_frame X n
      rw [h]; exact ⟨rfl, rfl⟩
  unfold finalize
  dsimp only
  split
  · rw [(key _ _).1, (key _ _).2]
  · rfl

theorem LTimes.fresh {W : World} (hr : Reachable Any W) (hf : W.finalized = false) (tm : Option ℚ)
    (hex : W.cfg.fl = id) (hdt : W.cfg.deltat ≠ 0) :
    LTimes (fun l => W.L.length l / W.L.u l) (W.finalize tm) := by
  have hno : ∀ v l, W.V.link v ≠ some l := by
    intro v l hl
    have := (hr.inv.s.link_run v l hl).1
    rw [hr.inv.s.unfinal hf v] at this
    cases this
  have htr : W.trace = [] := (TInv.reach hr).unfinal hf
  have htta := finalize_tta' W tm
  obtain ⟨ts, tta, fc, fr, la, e⟩ := finalize_frame W tm
  rw [e] at htta ⊢
  refine ⟨hex, hdt, fun v l hl => (hno v l hl).elim, fun l hl => ?_, fun l hl i hi => ?_⟩
  · have hl' : l < W.nLinks := hl
    dsimp only at htta ⊢
    rw [htta]; simp [hl']
  · have hl' : l < W.nLinks := hl
    dsimp only at htta hi ⊢
    rw [htta, htr]
    simp only [hl', if_true, List.getElem?_replicate, if_pos hi, stays, timeAt, List.find?_nil]
    unfold World.fl
    rw [hex]; rfl

end UX
