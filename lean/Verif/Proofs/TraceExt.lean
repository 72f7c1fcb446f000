import Verif.Proofs.Count

/-! A time step adds events of its own time only, in front. -/

namespace UX
open World

/-- `W` has the events of `W0` plus events of the current step. -/
def Ext (W0 W : World) : Prop := ∃ new, W.trace = new ++ W0.trace ∧ ∀ e ∈ new, e.at = W.T

theorem Ext.refl (W : World) : Ext W W := ⟨[], rfl, by simp⟩

theorem Ext.congr {W0 W W' : World} (h : Ext W0 W) (h1 : W'.trace = W.trace) (h2 : W'.T = W.T) :
    Ext W0 W' := by
  obtain ⟨new, h3, h4⟩ := h
  exact ⟨new, h1.trans h3, by rw [h2]; exact h4⟩

theorem Ext.cons {W0 W W' : World} {e : Event} (h : Ext W0 W) (h1 : W'.trace = e :: W.trace)
    (h2 : W'.T = W.T) (he : e.at = W.T) : Ext W0 W' := by
  obtain ⟨new, h3, h4⟩ := h
  refine ⟨e :: new, by rw [h1, h3]; rfl, ?_⟩
  rw [h2]
  simp only [List.mem_cons, forall_eq_or_imp]
  exact ⟨he, h4⟩

theorem Ext.prim {act : Act} {W0 W W' : World} (hc : Core W) (hp : Prim act W W') (h : Ext W0 W) :
    Ext W0 W' := by
  have hs := hp.shape hc.s
  clear hp
  cases hs with
  | depart => exact h.cons rfl rfl rfl
  | move => exact h.cons rfl rfl rfl
  | endTrip => exact h.cons rfl rfl rfl
  | startWait => exact h.cons rfl rfl rfl
  | linkTick => exact h.congr rfl rfl
  | nodeTick => exact h.congr rfl rfl
  | clearInc => exact h.congr rfl rfl
  | carfollow => exact h.congr rfl rfl
  | routing => exact h.congr rfl rfl
  | record => exact h.congr rfl rfl
  | noWait => exact h
  | advance => exact h.congr rfl rfl
  | event => exact h.congr rfl rfl
  | nextDest => exact h.congr rfl rfl
  | flagEnd => exact h.congr rfl rfl
  | flagAbort => exact h.congr rfl rfl
  | choose => exact h.congr rfl rfl
  | pushInc => exact h.congr rfl rfl

theorem step_ext {W W1 : World} (hi : Inv W) (hf : W.finalized = true) (h : W.step = .ok W1) :
    Ext W W1 := by
  obtain ⟨W6, hs, rfl⟩ := step_star (hi.core hf) h
  have h6 : Ext W W6 := hs.inv_core (fun a W' W'' _ hc hp h => h.prim hc hp) (hi.core hf) (Ext.refl W)
  exact h6

theorem tick_ext {W W' : World} (hi : Inv W) (hf : W.finalized = true) (h : W.tick = .ok W') :
    ∃ new, W'.trace = new ++ W.trace ∧ ∀ e ∈ new, e.at = W.T := by
  obtain ⟨W1, h1, rfl⟩ := tick_ok h
  obtain ⟨new, h2, h3⟩ := step_ext hi hf h1
  exact ⟨new, h2, by rw [← (step_T hi hf h1).1]; exact h3⟩

theorem countUpTo_append {f : Event → Option VehId} {new tr : List Event} {i : ℕ}
    (h : ∀ e ∈ new, i < e.at) : countUpTo f (new ++ tr) i = countUpTo f tr i := by
  unfold countUpTo
  rw [List.countP_append, List.countP_eq_zero.mpr, Nat.zero_add]
  intro e he
  simp [Nat.not_le.mpr (h e he)]

/-- Every API call or step leaves the events in place; only a time step adds some, at its time. -/
theorem api_trace {W W' : World} (hi : Inv W) (hs : ApiStep W W') :
    (W'.trace = W.trace ∧ (W'.T = W.T ∨ W.finalized = false)) ∨
    (W.finalized = true ∧ W'.T = W.T + 1 ∧ ∃ new, W'.trace = new ++ W.trace ∧ ∀ e ∈ new, e.at = W.T) := by
  rcases hs.kinds with ⟨hf, a, ph, t, soff, hn, rfl⟩ | ⟨hf, a, ha⟩ | ⟨a, ha⟩ | ⟨hf, tm, rfl⟩ |
    ⟨hf, hT, ht⟩ | hs | hs
  · exact .inl ⟨rfl, .inl rfl⟩
  · obtain ⟨s, e, nm, k, p, -, -, -, -, -, -, rfl⟩ := addLink_ok ha
    exact .inl ⟨rfl, .inl rfl⟩
  · obtain ⟨o, d, dep, pref, cache, lp, la, nm, -, -, -, -, -, -, -, -, rfl⟩ := addVehicle_ok ha
    exact .inl ⟨rfl, .inl rfl⟩
  · obtain ⟨ts, tta, fc, fr, la, hr⟩ := finalize_frame W tm
    rw [hr]
    exact .inl ⟨rfl, .inr hf⟩
  · refine .inr ⟨hf, ?_, tick_ext hi hf ht⟩
    obtain ⟨W1, h1, rfl⟩ := tick_ok ht
    rw [← (step_T hi hf h1).1]
  · obtain ⟨_, _, _, _, _, _, _, rfl, hd⟩ := hs
    exact .inl ⟨rfl, .inl rfl⟩
  · obtain ⟨_, _, _, _, _, _, _, _, _, _, _, _, _, _, _, _, _, _, _, rfl, -⟩ := hs
    exact .inl ⟨rfl, .inl rfl⟩

end UX
