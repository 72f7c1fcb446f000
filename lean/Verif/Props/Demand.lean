import Verif.Proofs.Demand
import Verif.Props.Demo

/-!
# Demand generation (C24)
-/

namespace UX
open World

theorem pyInt_intCast (k : ℤ) : pyInt (k : ℚ) = k := by
  unfold pyInt; split <;> simp

theorem pyInt_nonneg {q : ℚ} (h : 0 ≤ q) : pyInt q = ⌊q⌋ := if_pos h

theorem addDemand_loop {W W' : World} {o d : Ref} {ts te flow volume : ℚ}
    (hfl : W.cfg.fl = id) (h : W.addDemand o d ts te flow volume = .ok W') :
    (0 < volume → te - ts ≠ 0) ∧ ∃ f', demandLoop o d (if 0 < volume then volume / (te - ts) else flow)
      (pyRange (pyInt (ts / W.cfg.deltat)) (pyInt (te / W.cfg.deltat))) W 0 = .ok (W', f') := by
  unfold World.addDemand at h
  simp only [World.fl, hfl, World.dt, id] at h
  split at h
  · rename_i hv
    split at h
    · simp [bind, Except.bind, throw, throwThe, MonadExceptOf.throw] at h
    · rename_i hne
      rw [bind_ok] at h
      obtain ⟨q, hq, h⟩ := h
      rw [pure_ok] at hq
      subst hq
      rw [bind_ok] at h
      obtain ⟨⟨W1, f1⟩, h1, h2⟩ := h
      rw [pure_ok] at h2
      subst h2
      exact ⟨fun _ => hne, f1, by rw [if_pos hv]; exact h1⟩
  · rename_i hv
    rw [bind_ok] at h
    obtain ⟨q, hq, h⟩ := h
    rw [pure_ok] at hq
    subst hq
    rw [bind_ok] at h
    obtain ⟨⟨W1, f1⟩, h1, h2⟩ := h
    rw [pure_ok] at h2
    subst h2
    exact ⟨fun c => absurd c hv, f1, by rw [if_neg hv]; exact h1⟩

theorem loop_spread {W W' : World} {o d : Ref} {flow : ℚ} {on dn : NodeId} {a b : ℤ} {f'}
    (hfl : W.cfg.fl = id) (hn : 0 < W.cfg.deltan) (hdt : 0 < W.cfg.deltat) (hf : 0 ≤ flow)
    (ho : W.getNode o = .ok on) (hd : W.getNode d = .ok dn)
    (h : demandLoop o d flow (pyRange a b) W 0 = .ok (W', f')) :
    ∃ deps, Generated on dn deps W W' ∧ Spread a b (flow * W.cfg.deltat / W.cfg.deltan) deps := by
  have hq : 0 ≤ W.perStep flow := div_nonneg (mul_nonneg hf hdt.le) (by exact_mod_cast hn.le)
  rcases le_total a b with hab | hab
  · obtain ⟨n, rfl⟩ := Int.le.dest hab
    obtain ⟨g, -, -⟩ := demandLoop_generated hfl hn hdt.le hf ho hd h
    exact ⟨_, g, depSteps_spread hq a n⟩
  · have e : pyRange a b = [] := by
      unfold pyRange; rw [show (b - a).toNat = 0 by omega]; rfl
    rw [e, demandLoop] at h
    cases h
    refine ⟨[], Generated.refl .., by simp, by simp, fun k hk => ?_⟩
    obtain rfl : k = 0 := by omega
    simp

/-- `adddemand` with a flow: the new vehicles are numbered consecutively, go from `o` to `d`, and
their departure steps are spread over the window so that the number departed in the first `k` steps
is `⌊k · flow · Δt / Δn⌋`, for every `k`. -/
theorem C24_flow {W W' : World} {o d : Ref} {ts te flow volume : ℚ} {on dn : NodeId}
    (hfl : W.cfg.fl = id) (hn : 0 < W.cfg.deltan) (hdt : 0 < W.cfg.deltat)
    (hf : 0 ≤ flow) (hv : volume ≤ 0) (ho : W.getNode o = .ok on) (hd : W.getNode d = .ok dn)
    (h : W.addDemand o d ts te flow volume = .ok W') :
    ∃ deps, Generated on dn deps W W' ∧
      Spread (pyInt (ts / W.cfg.deltat)) (pyInt (te / W.cfg.deltat))
        (flow * W.cfg.deltat / W.cfg.deltan) deps := by
  obtain ⟨-, f', h⟩ := addDemand_loop hfl h
  rw [if_neg (not_lt.2 hv)] at h
  exact loop_spread hfl hn hdt hf ho hd h

/-- With a volume the same holds for the flow `volume / (t_end - t_start)`. -/
theorem C24_volume_flow {W W' : World} {o d : Ref} {ts te flow volume : ℚ} {on dn : NodeId}
    (hfl : W.cfg.fl = id) (hn : 0 < W.cfg.deltan) (hdt : 0 < W.cfg.deltat)
    (hw : ts < te) (hv : 0 < volume) (ho : W.getNode o = .ok on) (hd : W.getNode d = .ok dn)
    (h : W.addDemand o d ts te flow volume = .ok W') :
    ∃ deps, Generated on dn deps W W' ∧
      Spread (pyInt (ts / W.cfg.deltat)) (pyInt (te / W.cfg.deltat))
        (volume / (te - ts) * W.cfg.deltat / W.cfg.deltan) deps := by
  obtain ⟨-, f', h⟩ := addDemand_loop hfl h
  rw [if_pos hv] at h
  exact loop_spread hfl hn hdt (div_nonneg hv.le (by linarith)) ho hd h

theorem Spread.total {a b : ℤ} {q : ℚ} {l : List ℤ} (h : Spread a b q l) (hab : a ≤ b) :
    (l.length : ℤ) = ⌊((b - a : ℤ) : ℚ) * q⌋ := by
  have := h.floor (b - a).toNat (by omega)
  rw [List.filter_eq_self.2] at this
  · rw [this]
    congr 2
    have : (((b - a).toNat : ℤ) : ℚ) = ((b - a : ℤ) : ℚ) := by rw [Int.toNat_of_nonneg (by omega)]
    exact_mod_cast this
  · intro t ht
    have := h.window t ht
    simp; omega

/-- The number of vehicles generated from a flow. -/
theorem C24_count {W W' : World} {o d : Ref} {ts te flow volume : ℚ} {on dn : NodeId}
    (hfl : W.cfg.fl = id) (hn : 0 < W.cfg.deltan) (hdt : 0 < W.cfg.deltat)
    (hf : 0 ≤ flow) (hv : volume ≤ 0) (ho : W.getNode o = .ok on) (hd : W.getNode d = .ok dn)
    (h : W.addDemand o d ts te flow volume = .ok W')
    {steps : ℕ} (hs : pyInt (te / W.cfg.deltat) = pyInt (ts / W.cfg.deltat) + steps) :
    (W'.nVeh : ℤ) = W.nVeh + ⌊flow * W.cfg.deltat * steps / W.cfg.deltan⌋ := by
  obtain ⟨deps, g, s⟩ := C24_flow hfl hn hdt hf hv ho hd h
  rw [g.number]
  push_cast
  rw [s.total (by omega), hs]
  congr 2
  push_cast
  ring

/-- Departure times in seconds, for a window that starts at a nonnegative time: before the end of
the window, and after its start rounded down to a whole step. -/
theorem C24_window_partial {W : World} {ts te q : ℚ} (hdt : 0 < W.cfg.deltat) (h0 : 0 ≤ ts) (h1 : 0 ≤ te)
    {deps : List ℤ} (s : Spread (pyInt (ts / W.cfg.deltat)) (pyInt (te / W.cfg.deltat)) q deps) :
    ∀ t ∈ deps, ts - W.cfg.deltat < t * W.cfg.deltat ∧ t * W.cfg.deltat < te := by
  intro t ht
  obtain ⟨k1, k2⟩ := s.window t ht
  rw [pyInt_nonneg (div_nonneg h0 hdt.le)] at k1
  rw [pyInt_nonneg (div_nonneg h1 hdt.le)] at k2
  constructor
  · have e1 := Int.lt_floor_add_one (ts / W.cfg.deltat)
    have e2 : (⌊ts / W.cfg.deltat⌋ : ℚ) ≤ t := by exact_mod_cast k1
    have e3 : ts / W.cfg.deltat < t + 1 := by linarith
    rw [div_lt_iff₀ hdt] at e3
    linarith
  · have e2 : (t : ℚ) + 1 ≤ ⌊te / W.cfg.deltat⌋ := by exact_mod_cast k2
    have e1 := Int.floor_le (te / W.cfg.deltat)
    have e3 : (t : ℚ) + 1 ≤ te / W.cfg.deltat := by linarith
    rw [le_div_iff₀ hdt] at e3
    linarith

/-- When the window starts at a whole step, every departure lies within `[t_start, t_end)`. -/
theorem C24_window_aligned {W : World} {te q : ℚ} {i : ℤ} (hdt : 0 < W.cfg.deltat) (h1 : 0 ≤ te)
    {deps : List ℤ} (s : Spread (pyInt (i * W.cfg.deltat / W.cfg.deltat)) (pyInt (te / W.cfg.deltat)) q deps) :
    ∀ t ∈ deps, i * W.cfg.deltat ≤ t * W.cfg.deltat ∧ t * W.cfg.deltat < te := by
  intro t ht
  obtain ⟨k1, k2⟩ := s.window t ht
  rw [mul_div_assoc, div_self (ne_of_gt hdt), mul_one, pyInt_intCast] at k1
  rw [pyInt_nonneg (div_nonneg h1 hdt.le)] at k2
  refine ⟨mul_le_mul_of_nonneg_right (by exact_mod_cast k1) hdt.le, ?_⟩
  have e2 : (t : ℚ) + 1 ≤ ⌊te / W.cfg.deltat⌋ := by exact_mod_cast k2
  have e1 := Int.floor_le (te / W.cfg.deltat)
  have e3 : (t : ℚ) + 1 ≤ te / W.cfg.deltat := by linarith
  rw [le_div_iff₀ hdt] at e3
  linarith

/-- With a volume and a window aligned to the time step, `⌊volume / Δn⌋` platoons are generated,
never more vehicles than the volume. -/
theorem C24_volume {W W' : World} {o d : Ref} {flow volume : ℚ} {on dn : NodeId} {i j : ℤ}
    (hfl : W.cfg.fl = id) (hn : 0 < W.cfg.deltan) (hdt : 0 < W.cfg.deltat) (hij : i < j)
    (hv : 0 < volume) (ho : W.getNode o = .ok on) (hd : W.getNode d = .ok dn)
    (h : W.addDemand o d (i * W.cfg.deltat) (j * W.cfg.deltat) flow volume = .ok W') :
    (W'.nVeh : ℤ) = W.nVeh + ⌊volume / W.cfg.deltan⌋ ∧
      ((W'.nVeh - W.nVeh : ℤ) : ℚ) * W.cfg.deltan ≤ volume := by
  have hij' : (i : ℚ) < j := by exact_mod_cast hij
  have hn' : (0:ℚ) < (W.cfg.deltan : ℚ) := by exact_mod_cast hn
  have key : (W'.nVeh : ℤ) = W.nVeh + ⌊volume / W.cfg.deltan⌋ := by
    obtain ⟨deps, g, s⟩ := C24_volume_flow hfl hn hdt (mul_lt_mul_of_pos_right hij' hdt) hv ho hd h
    rw [mul_div_assoc, mul_div_assoc, div_self (ne_of_gt hdt), mul_one, mul_one, pyInt_intCast,
      pyInt_intCast] at s
    rw [g.number]
    push_cast
    rw [s.total hij.le]
    congr 2
    push_cast
    have : (j : ℚ) - i ≠ 0 := by linarith [hij'] |> fun (x : (0:ℚ) < j - i) => ne_of_gt x
    have hdt' := ne_of_gt hdt
    rw [← sub_mul]
    field_simp
  refine ⟨key, ?_⟩
  rw [key]
  push_cast
  have := Int.floor_le (volume / (W.cfg.deltan : ℚ))
  rw [le_div_iff₀ hn'] at this
  linarith

/-- A flow that is not positive generates nothing. -/
theorem C24_no_flow {W W' : World} {o d : Ref} {ts te flow volume : ℚ}
    (hfl : W.cfg.fl = id) (hn : 0 < W.cfg.deltan) (hdt : 0 < W.cfg.deltat)
    (hf : flow ≤ 0) (hv : volume ≤ 0) (h : W.addDemand o d ts te flow volume = .ok W') : W' = W := by
  obtain ⟨-, f', h⟩ := addDemand_loop hfl h
  rw [if_neg (not_lt.2 hv)] at h
  have hn' : (0:ℚ) < (W.cfg.deltan : ℚ) := by exact_mod_cast hn
  have main : ∀ (l : List ℤ) (f : ℚ), f ≤ 0 → ∀ {W' f'}, demandLoop o d flow l W f = .ok (W', f') → W' = W := by
    intro l
    induction l with
    | nil => intro f _ W' f' h; rw [demandLoop] at h; cases h; rfl
    | cons t l ih =>
      intro f hf0 W' f' h
      rw [demandLoop] at h
      have hx : W.fl (f + W.fl (flow * W.dt)) = f + flow * W.cfg.deltat := by
        simp [World.fl, World.dt, hfl]
      have hneg : f + flow * W.cfg.deltat ≤ 0 := by
        have := mul_nonpos_of_nonpos_of_nonneg hf hdt.le; linarith
      rw [hx, demandWhile, if_neg (by unfold World.dn; linarith)] at h
      exact ih _ hneg h
  exact main _ 0 le_rfl h

/-- `adddemand` raises no exception when the nodes exist, the window is not empty and no vehicle
carries the number of a vehicle to come as its name. -/
theorem C24_succeeds {W : World} {o d : Ref} {ts te flow volume : ℚ} {on dn : NodeId}
    (hfl : W.cfg.fl = id) (hn : 0 < W.cfg.deltan) (hdt : 0 < W.cfg.deltat)
    (hw : ts < te) (hf : 0 ≤ flow) (ho : W.getNode o = .ok on) (hd : W.getNode d = .ok dn)
    (hfree : NamesFree W) : ∃ W', W.addDemand o d ts te flow volume = .ok W' := by
  have loop : ∀ q, 0 ≤ q → ∃ W' f', demandLoop o d q
      (pyRange (pyInt (ts / W.cfg.deltat)) (pyInt (te / W.cfg.deltat))) W 0 = .ok (W', f') := by
    intro q hq
    rcases le_total (pyInt (ts / W.cfg.deltat)) (pyInt (te / W.cfg.deltat)) with hab | hab
    · obtain ⟨n, hb⟩ := Int.le.dest hab
      rw [← hb]
      exact demandLoop_total hfl hn hdt.le hq ho hd hfree
    · refine ⟨W, 0, ?_⟩
      unfold pyRange
      rw [show (pyInt (te / W.cfg.deltat) - pyInt (ts / W.cfg.deltat)).toNat = 0 by omega]; rfl
  unfold World.addDemand
  simp only [World.fl, hfl, World.dt, id]
  split
  · rename_i hv
    obtain ⟨W', f', hl⟩ := loop (volume / (te - ts)) (div_nonneg hv.le (by linarith))
    rw [if_neg (by linarith [hw] |> fun (x : (0:ℚ) < te - ts) => ne_of_gt x)]
    exact ⟨W', by simp [bind, Except.bind, pure, Except.pure, hl]⟩
  · obtain ⟨W', f', hl⟩ := loop flow hf
    exact ⟨W', by simp [bind, Except.bind, pure, Except.pure, hl]⟩

/-! ## Concrete cases -/

def demandBase : M World := runCmds demoCfg (fun _ => 0) [.node { name := "a" }, .node { name := "b" }]

/-- 0.5 vehicles per second from 10 s to 40 s: 15 vehicles, that is three platoons. -/
example : obs (demandBase.bind fun W => W.addDemand (.name "a") (.name "b") 10 40 (1/2) (-1))
    (fun W => decide (W.nVeh = 3 ∧ W.V.depTime 0 = 3 ∧ W.V.depTime 1 = 5 ∧ W.V.depTime 2 = 7)) = true := by
  decide +kernel

/-- 33 vehicles over an aligned window: six platoons. -/
example : obs (demandBase.bind fun W => W.addDemand (.name "a") (.name "b") 10 40 (-1) 33)
    (fun W => decide (W.nVeh = 6)) = true := by
  decide +kernel

/-- The window is not respected when it does not start at a whole step: a departure at 5 s for a
window from 7 s. -/
theorem C24_window_false : ∃ W W' : World, Reachable Any W ∧ W.cfg.fl = id ∧ W.cfg.deltat = 5 ∧
    W.addDemand (.name "a") (.name "b") 7 20 1 (-1) = .ok W' ∧ W'.V.depTime 0 = 1 ∧ W.nVeh = 0 ∧
    W'.nVeh = 3 := by
  have h : obs demandBase (fun W => decide (W.cfg.deltat = 5 ∧ W.nVeh = 0) &&
      obs (W.addDemand (.name "a") (.name "b") 7 20 1 (-1))
        (fun W' => decide (W'.V.depTime 0 = 1 ∧ W'.nVeh = 3))) = true := by decide +kernel
  obtain ⟨W, h1, h2⟩ := obs_ok h
  rw [Bool.and_eq_true] at h2
  obtain ⟨h2, h3⟩ := h2
  obtain ⟨W', h4, h5⟩ := obs_ok h3
  simp only [decide_eq_true_eq] at h2 h5
  have hr := runCmds_reachable h1
  exact ⟨W, W', hr, by
    have e : W.cfg = demoCfg := by
      unfold demandBase runCmds at h1
      simp only [List.foldlM, bind_ok] at h1
      obtain ⟨A, hA, B, hB, hC⟩ := h1
      rw [pure_ok] at hC
      subst hC
      rw [(Cmd.run_api hB).cfg (Reachable.inv (.next (.new (OK := Any) trivial) (Cmd.run_api hA) trivial)),
        (Cmd.run_api hA).cfg (Reachable.inv (.new (OK := Any) trivial))]
      rfl
    rw [e]; rfl, h2.1, h4, h5.1, h2.2, h5.2⟩

/-- An unaligned window can generate more vehicles than the volume: 50 instead of 30. -/
theorem C24_volume_false : ∃ W W' : World, Reachable Any W ∧ W.cfg.deltan = 5 ∧ W.cfg.deltat = 5 ∧
    W.addDemand (.name "a") (.name "b") 4 10 (-1) 30 = .ok W' ∧ W.nVeh = 0 ∧ W'.nVeh = 10 := by
  have h : obs demandBase (fun W => decide (W.cfg.deltat = 5 ∧ W.nVeh = 0 ∧ W.cfg.deltan = 5) &&
      obs (W.addDemand (.name "a") (.name "b") 4 10 (-1) 30)
        (fun W' => decide (W'.nVeh = 10))) = true := by decide +kernel
  obtain ⟨W, h1, h2⟩ := obs_ok h
  rw [Bool.and_eq_true] at h2
  obtain ⟨h2, h3⟩ := h2
  obtain ⟨W', h4, h5⟩ := obs_ok h3
  simp only [decide_eq_true_eq] at h2 h5
  exact ⟨W, W', runCmds_reachable h1, h2.2.2, h2.1, h4, h2.2.1, h5⟩

end UX
