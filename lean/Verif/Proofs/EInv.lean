import Verif.Proofs.Phase

/-! Trip records and events. `b = 0` between steps and in the first half of a step, `b = 1` in the
second half. -/

namespace UX
open World

structure EInv (b : ℕ) (W : World) : Prop where
  wait : ∀ v, W.V.state v = .wait → W.V.depTime v < W.T + b
  run : ∀ v, W.V.state v = .run → W.V.depTime v < W.T
  ended : ∀ v, W.V.state v = .ended → W.V.depTime v < W.V.arrTime v ∧ 0 ≤ W.V.arrTime v ∧
    W.V.arrTime v < W.T + 1 ∧
    W.V.travelTime v = W.cfg.fl ((W.V.arrTime v - W.V.depTime v : ℤ) * W.cfg.deltat)
  open_ : ∀ v, W.V.state v ≠ .ended → W.V.arrTime v = -1 ∧ W.V.travelTime v = -1
  ev_dep : ∀ (T : ℕ) v n l, .depart T v n l ∈ W.trace → v < W.nVeh ∧ W.V.depTime v < T ∧ W.V.orig v = n
  ev_queue : ∀ (T : ℕ) v n, .queue T v n ∈ W.trace → v < W.nVeh ∧ W.V.depTime v ≤ T ∧ W.V.orig v = n
  ev_fin : ∀ T v l ab, .finish T v l ab ∈ W.trace → v < W.nVeh ∧ l < W.nLinks ∧
    (ab = false → W.V.state v = .ended ∧ W.V.mode v = .single ∧ W.V.dest v = some (W.L.endN l)) ∧
    (ab = true → W.V.state v = .abort ∧ W.N.outlinks (W.L.endN l) = [] ∧ W.V.tripAbort v = true ∧
      (W.V.mode v = .single → W.V.dest v ≠ some (W.L.endN l)))
  fin_ev : ∀ v, W.V.state v = .ended → ∃ l, .finish (W.V.arrTime v).toNat v l false ∈ W.trace
  abort_ev : ∀ v, W.V.state v = .abort → ∃ T l, .finish T v l true ∈ W.trace
  at_le : ∀ e ∈ W.trace, e.at < W.T + 1

namespace EInv

set_option maxHeartbeats 1000000 in
theorem early {act : Act} {W W' : World} (ha : isEarly act) (hc : Core W) (hp : Prim act W W')
    {b : ℕ} (hb : b = 0) (h : EInv b W) : EInv b W' := by
  subst hb
  have hs := hp.shape hc.s
  clear hp
  cases hs with
  | linkTick => cases h; constructor <;> assumption
  | nodeTick => cases h; constructor <;> assumption
  | clearInc => cases h; constructor <;> assumption
  | carfollow => cases h; constructor <;> assumption
  | routing => cases h; constructor <;> assumption
  | @depart _ n v t cs l o hn hq hcs hl hout hent hcum hlead =>
    have hm := hc.s.genq_mem n v (by simp [hq])
    have hfr := hc.s.fresh v
    clear hcs hent hcum hlead hq hn hl hout
    cases h
    constructor <;> (try simp only [upd_apply, World.fl, World.dt]) <;> (try assumption) <;> grind [Event.at]
  | @move _ n v a b t o q nl fc tta hn hinc hla hv hr hsig hout hfl hent hcd hca hu hlead hnl hq hfc htta =>
    have hlr := hc.s.link_run v a hla
    clear hlead hnl hq hfc htta hent hsig hout hfl
    have hal := h.at_le
    cases h
    constructor <;> (try simp only [List.mem_cons, reduceCtorEq, false_or]) <;> (try assumption)
    rintro e (rfl | he)
    · simp [Event.at]
    · exact hal e he
  | @endTrip _ v l t log s c lt tta hl hv hf hcd hrun hliv hlt hlog htta =>
    have hlr := hc.s.link_run v l hl
    have hff := hc.f.flag v l hl hf
    have hlv := (hc.s.living_iff v).mp hliv
    have hnn : (W.T : ℤ).toNat = W.T := by simp
    clear hlt hlog htta hcd
    cases h
    constructor <;> (try simp only [upd_apply, World.fl, World.dt]) <;> (try assumption) <;> grind [World.fl, World.dt, Event.at]
  | _ => exact ha.elim


set_option maxHeartbeats 1000000 in
theorem late {act : Act} {W W' : World} (ha : isLate act) (hc : Core W) (hp : Prim act W W')
    (h : EInv 1 W) : EInv 1 W' := by
  have hs := hp.shape hc.s
  clear hp
  cases hs with
  | record => cases h; constructor <;> assumption
  | noWait => exact h
  | advance => cases h; constructor <;> assumption
  | routing => cases h; constructor <;> assumption
  | @event _ v a e rng R H dest destList nodeEvent pref ha he hr hd =>
    clear hr
    cases h; constructor <;> (try assumption)
    dsimp only
    grind
  | @nextDest _ v a d dl ha hd hm hdl =>
    cases h; constructor <;> (try assumption)
    dsimp only
    grind [upd_apply]
  | flagEnd => cases h; constructor <;> assumption
  | flagAbort => cases h; constructor <;> assumption
  | choose => cases h; constructor <;> assumption
  | pushInc => cases h; constructor <;> assumption
  | @startWait _ v hliv hs hd =>
    have hlv := (hc.s.living_iff v).mp hliv
    cases h
    constructor <;> (try simp only [upd_apply, World.fl, World.dt]) <;> (try assumption) <;> grind [Event.at]
  | @endTrip _ v l t log s c lt tta hl hv hf hcd hrun hliv hlt hlog htta =>
    have hlr := hc.s.link_run v l hl
    have hff := hc.f.flag v l hl hf
    have hlv := (hc.s.living_iff v).mp hliv
    have hnn : (W.T : ℤ).toNat = W.T := by simp
    clear hlt hlog htta hcd
    cases h
    constructor <;> (try simp only [upd_apply, World.fl, World.dt]) <;> (try assumption) <;> grind [World.fl, World.dt, Event.at]
  | _ => exact ha.elim

theorem weaken {W : World} (h : EInv 0 W) : EInv 1 W := by
  have := h.wait
  cases h; constructor <;> (try assumption)
  intro v hv
  have := this v hv
  push_cast at *
  omega

theorem next {W : World} (h : EInv 1 W) (t : ℚ) : EInv 0 { W with time := t, T := W.T + 1 } := by
  have h1 := h.wait
  have h2 := h.run
  have h3 := h.ended
  have h4 := h.at_le
  cases h; constructor <;> (try assumption) <;> dsimp only
  · intro v hv; have := h2 v hv; push_cast at *; omega
  · intro v hv; have := h3 v hv; push_cast at *; refine ⟨this.1, this.2.1, by omega, this.2.2.2⟩
  · intro e he; have := h4 e he; omega

theorem reach {OK : World → Prop} {W : World} (h : Reachable OK W) : EInv 0 W := by
  have h := h.strengthen (Q := TInv) (fun W => TInv.reach)
  refine Reachable.induct (P := EInv 0) ?_ ?_ ?_ ?_ ?_ ?_ ?_ ?_ h
  · intro cfg tmax rng
    constructor <;> simp [World.new]
  · intro W a ph t soff hi hf hn hok _ hE
    have htr := hok.2.unfinal hf
    cases hE
    constructor <;> (try assumption) <;> simp [addNodeRes, htr]
  · intro W W' a hi hf ha hok _ hT
    obtain ⟨s, e, nm, k, p, -, -, -, -, -, -, rfl⟩ := addLink_ok ha
    have htr := hok.2.unfinal hf
    cases hT
    constructor <;> (try assumption) <;> simp [addLinkRes, htr]
  · intro W W' a hi ha _ _ hT
    obtain ⟨o, d, dep, pref, cache, lp, la, nm, -, -, -, -, -, -, -, -, rfl⟩ := addVehicle_ok ha
    have := hi.s.fresh
    cases hT
    constructor <;> (try simp only [addVehRes, upd_apply]) <;> (try assumption) <;> grind
  · intro W tm hi hf hok _ hT
    have htr := hok.2.unfinal hf
    have hh := hi.s.unfinal hf
    obtain ⟨ts, tta, fc, fr, la, hr⟩ := finalize_frame W tm
    rw [hr]
    cases hT
    constructor <;> (try assumption) <;> simp [hh, htr]
  · intro W W' _ _ _ hs hT
    obtain ⟨_, _, _, _, _, _, _, rfl, hd⟩ := hs
    cases hT
    constructor <;> (try assumption)
    dsimp only
    grind
  · intro W W' _ _ _ hs hT
    obtain ⟨_, _, _, _, _, _, _, _, _, _, _, _, _, _, _, _, _, _, _, rfl, -⟩ := hs
    cases hT
    constructor <;> assumption
  · intro W W1 W' hi hf _ _ _ h1 hW hT
    obtain ⟨W6, hc, hs, h6, rfl⟩ := step_two (Pa := EInv 0) (Pb := EInv 1) hi hf
      (fun _ _ _ ha hc hp h => early ha hc hp rfl h) (fun _ _ _ h => h.weaken)
      (fun _ _ _ ha hc hp h => late ha hc hp h) h1 hT
    subst hW
    exact h6.next _

end EInv
end UX
