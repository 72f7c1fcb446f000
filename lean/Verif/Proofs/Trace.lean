import Verif.Proofs.Shape
import Verif.Spec.Trace

/-! Invariants relating the event history to queues. -/

namespace UX
open World

theorem history_cons_some {f : Event → Option VehId} {e v tr} (h : f e = some v) :
    history f (e :: tr) = history f tr ++ [v] := by
  simp [history, List.filterMap_cons, h]

theorem history_cons_none {f : Event → Option VehId} {e tr} (h : f e = none) :
    history f (e :: tr) = history f tr := by
  simp [history, List.filterMap_cons, h]

structure TInv (W : World) : Prop where
  fifo : ∀ l, history (enters l) W.trace = history (leaves l) W.trace ++ W.L.vehs l
  fifoQ : ∀ n, history (joins n) W.trace = history (quits n) W.trace ++ W.N.genq n
  unfinal : W.finalized = false → W.trace = []

namespace TInv

theorem congr {W W' : World} (h : TInv W) (h1 : W'.trace = W.trace) (h2 : W'.L.vehs = W.L.vehs)
    (h3 : W'.N.genq = W.N.genq) (h4 : W'.finalized = W.finalized) : TInv W' := by
  obtain ⟨a, b, c⟩ := h
  exact ⟨by rw [h1, h2]; exact a, by rw [h1, h3]; exact b, by rw [h4, h1]; exact c⟩

theorem prim {act : Act} {W W' : World} (hc : Core W) (hp : Prim act W W') (h : TInv W) : TInv W' := by
  have hs := hp.shape hc.s
  cases hs with
  | linkTick => exact h.congr rfl rfl rfl rfl
  | nodeTick => exact h.congr rfl rfl rfl rfl
  | clearInc => exact h.congr rfl rfl rfl rfl
  | carfollow => exact h.congr rfl rfl rfl rfl
  | record => exact h.congr rfl rfl rfl rfl
  | noWait => exact h
  | advance => exact h.congr rfl rfl rfl rfl
  | routing => exact h.congr rfl rfl rfl rfl
  | event => exact h.congr rfl rfl rfl rfl
  | nextDest => exact h.congr rfl rfl rfl rfl
  | flagEnd => exact h.congr rfl rfl rfl rfl
  | flagAbort => exact h.congr rfl rfl rfl rfl
  | choose => exact h.congr rfl rfl rfl rfl
  | pushInc => exact h.congr rfl rfl rfl rfl
  | @depart _ n v t _ l _ _ hq =>
    obtain ⟨a, b, c⟩ := h
    refine ⟨fun k => ?_, fun m => ?_, fun hf => by rw [hc.fin] at hf; cases hf⟩
    · rw [history_cons_none (f := leaves k) rfl]
      by_cases hk : k = l
      · subst hk
        rw [history_cons_some (v := v) (by simp [enters]), a]
        simp
      · rw [history_cons_none (by simp [enters, Ne.symm hk]), a]
        simp [upd_apply, hk]
    · rw [history_cons_none (f := joins m) rfl]
      by_cases hm : m = n
      · subst hm
        rw [history_cons_some (v := v) (by simp [quits]), b, hq]
        simp
      · rw [history_cons_none (by simp [quits, Ne.symm hm]), b]
        simp [upd_apply, hm]
  | @move _ n v a b t _ _ _ _ _ _ _ _ hv =>
    obtain ⟨h1, h2, h3⟩ := h
    refine ⟨fun k => ?_, fun m => ?_, fun hf => by rw [hc.fin] at hf; cases hf⟩
    · have h1k := h1 k
      by_cases hb : b = k
      · rw [history_cons_some (v := v) (by simp [enters, hb])]
        by_cases ha : a = k
        · rw [history_cons_some (f := leaves k) (v := v) (by simp [leaves, ha]), h1k]
          subst ha; subst hb
          rw [hv]
          simp
        · rw [history_cons_none (f := leaves k) (by simp [leaves, ha]), h1k]
          subst hb
          simp [upd_apply, Ne.symm ha]
      · rw [history_cons_none (by simp [enters, hb])]
        by_cases ha : a = k
        · rw [history_cons_some (f := leaves k) (v := v) (by simp [leaves, ha]), h1k]
          subst ha
          rw [hv]
          simp [upd_apply, Ne.symm hb]
        · rw [history_cons_none (f := leaves k) (by simp [leaves, ha]), h1k]
          simp [upd_apply, Ne.symm ha, Ne.symm hb]
    · rw [history_cons_none (f := joins m) rfl, history_cons_none (f := quits m) rfl]
      exact h2 m
  | @endTrip _ v l t _ _ _ _ _ _ hv =>
    obtain ⟨h1, h2, h3⟩ := h
    refine ⟨fun k => ?_, fun m => ?_, fun hf => by rw [hc.fin] at hf; cases hf⟩
    · have h1k := h1 k
      rw [history_cons_none (f := enters k) rfl]
      by_cases hl : l = k
      · rw [history_cons_some (f := leaves k) (v := v) (by simp [leaves, hl]), h1k]
        subst hl
        rw [hv]
        simp
      · rw [history_cons_none (f := leaves k) (by simp [leaves, hl]), h1k]
        simp [upd_apply, Ne.symm hl]
    · rw [history_cons_none (f := joins m) rfl, history_cons_none (f := quits m) rfl]
      exact h2 m
  | @startWait _ v =>
    obtain ⟨a, b, c⟩ := h
    refine ⟨fun k => ?_, fun m => ?_, fun hf => by rw [hc.fin] at hf; cases hf⟩
    · rw [history_cons_none (f := enters k) rfl, history_cons_none (f := leaves k) rfl]
      exact a k
    · rw [history_cons_none (f := quits m) rfl]
      by_cases hm : m = W.V.orig v
      · subst hm
        rw [history_cons_some (v := v) (by simp [joins]), b]
        simp
      · rw [history_cons_none (by simp [joins, Ne.symm hm]), b]
        simp [upd_apply, hm]

theorem reach {OK : World → Prop} {W : World} (h : Reachable OK W) : TInv W := by
  refine Reachable.induct (P := TInv) ?_ ?_ ?_ ?_ ?_ ?_ ?_ ?_ h
  · intro cfg tmax rng
    refine ⟨fun _ => rfl, fun _ => rfl, fun _ => rfl⟩
  · intro W a ph t soff hi hf hn _ _ hT
    refine ⟨hT.fifo, fun n => ?_, hT.unfinal⟩
    have := hT.fifoQ n
    change history _ W.trace = history _ W.trace ++ _
    rw [hT.unfinal hf] at this ⊢
    simp only [addNodeRes, upd_apply]
    split
    · rfl
    · exact this
  · intro W W' a hi hf ha _ _ hT
    obtain ⟨s, e, nm, k, p, -, -, -, -, -, -, rfl⟩ := addLink_ok ha
    refine ⟨fun l => ?_, hT.fifoQ, hT.unfinal⟩
    have := hT.fifo l
    change history _ W.trace = history _ W.trace ++ _
    rw [hT.unfinal hf] at this ⊢
    simp only [addLinkRes, upd_apply]
    split
    · rfl
    · exact this
  · intro W W' a hi ha _ _ hT
    obtain ⟨o, d, dep, pref, cache, lp, la, nm, -, -, -, -, -, -, -, -, rfl⟩ := addVehicle_ok ha
    exact hT.congr rfl rfl rfl rfl
  · intro W tm hi hf _ _ hT
    obtain ⟨ts, tta, fc, fr, la, hr⟩ := finalize_frame W tm
    rw [hr]
    exact ⟨hT.fifo, hT.fifoQ, fun h => by simp at h⟩
  · intro W W' _ _ _ hs hT
    obtain ⟨_, _, _, _, _, _, _, rfl, -⟩ := hs
    exact hT.congr rfl rfl rfl rfl
  · intro W W' _ _ _ hs hT
    obtain ⟨_, _, _, _, _, _, _, _, _, _, _, _, _, _, _, _, _, _, _, rfl, -⟩ := hs
    exact hT.congr rfl rfl rfl rfl
  · intro W W1 W' hi hf _ _ _ h1 hW hT
    subst hW
    exact step_prim hi hf (fun _ _ _ hc hp h => TInv.prim hc hp h)
      (fun W t k _ h => h.congr rfl rfl rfl rfl) h1 hT

end TInv
end UX
