import Verif.Proofs.CppCarryTurn
import Verif.Props.CppSpeed

/-!
# C105: movement beyond the end of a link is carried over in the C++ engine
-/

namespace UX
open Cpp Cpp.Spec Cpp.CWorld

variable {W : CWorld}

/-- **C105.** A vehicle on a link at the end of a time step was on it after the transfers. It has moved as
far as Newell's law lets it, with respect to the vehicle as many places ahead as there are lanes, at most to the
end of the link. If it could have moved further, what is left is remembered. -/
theorem C105_rest {W' : CWorld} (h : SteadyReach W) (ok : FlOK W.g.fl) (hn : 0 ≤ W.g.deltaN)
    {sched : ℕ → CWorld → Sched} (hs : ∀ t V, (sched t V).Valid V) {endTs : ℕ}
    (hr : W.mainLoop sched endTs = (W', none)) (ht : W'.g.timestep = W.g.timestep + 1) {l v : ℕ}
    (hv : v ∈ (W'.link l).vehs) :
    let X := nodeTurn (sched W.g.timestep W) W W.g.nNodes
    ∃ i, (X.link l).vehs[i]? = some v ∧
      let p := beyond W l (X.veh v).x ((placesAhead X l i).map (fun u => (X.veh u).x))
      (W'.veh v).x = min (W.link l).len p ∧
      (W'.veh v).moveRem = if (W.link l).len < p then W.g.fl (p - (W.link l).len) else (X.veh v).moveRem := by
  have r := h.toClean.toReach.rest
  obtain ⟨h1, h2⟩ := main_rest hs r hr ht
  obtain ⟨h3, h4, h5⟩ := h2 l v hv
  intro X
  obtain ⟨i, hi, a, b⟩ := region_rest r _ (hs W.g.timestep W) (h.kin ok hn).1 (h.kin ok hn).2 h1 h3
  exact ⟨i, hi, h4.trans a, h5.trans b⟩

/-- **C105.** Until it is the turn of the node at the end of its link, position and rest of a vehicle stay as they
are; so do all former positions. -/
theorem C105_kept (h : CReach W) (σ : Sched) {a v : ℕ} (hv : v ∈ (W.link a).vehs) {n : ℕ}
    (hn : n ≤ (W.link a).dst) :
    v ∈ ((nodeTurn σ W n).link a).vehs ∧ ((nodeTurn σ W n).veh v).x = (W.veh v).x ∧
    ((nodeTurn σ W n).veh v).moveRem = (W.veh v).moveRem ∧
    ∀ w, ((nodeTurn σ W n).veh w).xOld = (W.veh w).xOld := by
  obtain ⟨es, h1, h2, h3⟩ := nodeTurn_kept h.rest σ (h.rest.inv.mem a v hv).2.2.1 hn
  exact ⟨by rw [h1]; exact List.mem_append_left _ hv, (h3 v hv).1, (h3 v hv).2, h2⟩

/-- **C105.** The vehicles that a node lets into link `b` come from the links that end at the node, have arrived at
their ends, and are put where the rest of their last movement takes them, at most to the jam spacing behind the
former position of the vehicle as many places ahead as `b` has lanes. The rest is used up. -/
theorem C105_entry (h : CReach W) (σ : Sched) {n b : ℕ} (hb : b < W.g.nLinks) (hd : (W.link b).dst ≠ n) :
    let X := nodeTurn σ W n
    let Y := nodeTurn σ W (n + 1)
    ∃ es, (Y.link b).vehs = (X.link b).vehs ++ es ∧
      (∀ w ∈ (X.link b).vehs, (Y.veh w).x = (X.veh w).x) ∧
      ∀ j v, es[j]? = some v → ∃ a, (W.link a).dst = n ∧ v ∈ (X.link a).vehs ∧ v ∈ (X.link a).arrived ∧
        (Y.veh v).x = entryPos W a b (X.veh v).moveRem
          ((placesAhead Y b ((X.link b).vehs.length + j)).map (fun u => (X.veh u).xOld)) ∧
        (Y.veh v).moveRem = 0 := by
  obtain ⟨r, k⟩ := h.rest.nodeTurn σ n
  have hdd : ∀ c, ((nodeTurn σ W n).link c).dst = (W.link c).dst := fun c =>
    (congrArg CLink.dst (k.link c) : _)
  have hni : b ∉ ((nodeTurn σ W n).node n).inLinks := fun hm =>
    hd ((hdd b).symm.trans ((r.inv.inL _ b).1 hm).2)
  obtain ⟨es, h1, h2, _⟩ := transfer_enter r hni (by rw [k.g]; exact hb)
  rw [← nodeTurn_succ] at h1 h2
  refine ⟨es, h1.vehs, fun w hw => (h1.same w hw).1, fun j v hj => ?_⟩
  obtain ⟨a, ha, hva, har, hx, hm⟩ := h2 j v hj
  refine ⟨a, (hdd a).symm.trans ((r.inv.inL n a).1 ha).2, hva, har, ?_, hm⟩
  rw [hx, entryPos_congr k]

/-- **C105.** Without rounding and with nobody ahead, a vehicle that crosses from `a` to `b` without reaching the
end of `b` has lost no time: the parts of the last time step on both links add up to it. -/
theorem C105_time (hfl : W.g.fl = id) {a b : ℕ} {x : ℚ} (ha : 0 < (W.link a).vmax) (hb : 0 < (W.link b).vmax)
    (hx : x ≤ (W.link a).len) (hp : (W.link a).len < beyond W a x none)
    (hl : entryPos W a b (beyond W a x none - (W.link a).len) none < (W.link b).len) (hdt : 0 ≤ W.g.deltaT) :
    ((W.link a).len - x) / (W.link a).vmax +
      entryPos W a b (beyond W a x none - (W.link a).len) none / (W.link b).vmax = W.g.deltaT := by
  have hbe : beyond W a x none = x + (W.link a).vmax * W.g.deltaT := by
    simp only [beyond, hfl, id]
    exact max_eq_right (by nlinarith)
  have hs : 0 < (beyond W a x none - (W.link a).len) * (W.link b).vmax / (W.link a).vmax :=
    div_pos (mul_pos (by linarith) hb) ha
  have he : entryPos W a b (beyond W a x none - (W.link a).len) none =
      (beyond W a x none - (W.link a).len) * (W.link b).vmax / (W.link a).vmax := by
    simp only [entryPos, hfl, id] at hl ⊢
    rcases le_total (W.link b).len ((beyond W a x none - (W.link a).len) * (W.link b).vmax / (W.link a).vmax) with c | c
    · rw [min_eq_left c] at hl
      exact absurd hl (not_lt.2 (le_max_right _ _))
    · rw [min_eq_right c, max_eq_right hs.le]
  rw [he, hbe]
  field_simp
  ring

/-! ## Concrete cases -/

/-- A vehicle with a rest of 50 m from a link with a limit of 20 m/s enters one with a limit of 10 m/s at 25 m. The
vehicle behind it has moved to the end with a rest of 25 m. -/
theorem C105_case : SteadyReach cppFast0 ∧ FlOK cppFast0.g.fl ∧ CReach (cppFast 4) ∧
    ((cppFast 4).veh 0).x = 250 ∧ ((cppFast 4).veh 0).moveRem = 50 ∧ ((cppFast 4).link 0).vehs = [0, 1] ∧
    beyond (cppFast 4) 0 200 none = 300 ∧ ((cppFast 4).link 0).len = 250 ∧
    ((nodeTurn (cppFast 4).seqSched (cppFast 4) 2).link 1).vehs = [0] ∧
    ((nodeTurn (cppFast 4).seqSched (cppFast 4) 2).veh 0).x = 25 ∧ entryPos (cppFast 4) 0 1 50 none = 25 ∧
    ((nodeTurn (cppFast 4).seqSched (cppFast 4) 2).veh 0).moveRem = 0 ∧
    ((cppFast 5).veh 1).x = 250 ∧ ((cppFast 5).veh 1).moveRem = 25 := by
  refine ⟨cppFast0_steady, ⟨monotone_id, rfl, fun _ => rfl⟩, ?_, ?_, ?_, ?_, ?_, ?_, ?_, ?_, ?_, ?_, ?_, ?_⟩
  · exact (CleanReach.step cppFast0_steady.toClean
      (CleanStep.run _ _ _ _ seqSched_valid (Prod.ext rfl (by decide +kernel)))).toReach
  all_goals decide +kernel

/-- **C105**, what does not hold: a vehicle does not use up its whole movement when the next link is shorter than
the rest. It stops at the end of that link, and what is left then is lost. -/
theorem C105_short_false : ¬ ∀ W : CWorld, W.g.fl = id → ∀ a b : ℕ, 0 < (W.link a).vmax → 0 < (W.link b).vmax →
    0 < W.g.deltaT → ∀ x, x ≤ (W.link a).len → (W.link a).len < beyond W a x none →
    ((W.link a).len - x) / (W.link a).vmax +
      entryPos W a b (beyond W a x none - (W.link a).len) none / (W.link b).vmax = W.g.deltaT := by
  intro h
  have := h (cppFast0.setL 1 (fun L => { L with len := 10 })) rfl 0 1 (by decide +kernel) (by decide +kernel)
    (by decide +kernel) 200 (by decide +kernel) (by decide +kernel)
  revert this
  decide +kernel

end UX
