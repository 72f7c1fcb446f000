import Verif.Proofs.Lone
import Verif.Props.Safe

/-!
# C50: an unobstructed vehicle arrives on schedule
-/

namespace UX
open World

theorem Timed.onSchedule {v : VehId} {n : NodeId} {l : LinkId} {D : ℤ} {d len : ℚ} {W : World}
    (h : Timed v n l D d len W) (hd : 0 < d) (hlen : 0 < len) : OnSchedule v l D d len W := by
  have hlt : ∀ j : ℕ, (j : ℚ) < len / d ↔ j * d < len := fun j => lt_div_iff₀ hd
  have hle : ∀ j : ℕ, len / d ≤ (j : ℚ) ↔ len ≤ j * d := fun j => div_le_iff₀ hd
  obtain ⟨-, -, -, -, hat⟩ := h
  rcases hat with ⟨hT, hs, -⟩ | ⟨hT, hs, -⟩ | ⟨i, hi, hT, hil, hs, hl, hx, -⟩ | ⟨i, hi, hT, hil, hs, harr⟩
  · exact ⟨fun _ => hs, fun e => by omega, fun j hj e => by omega, fun j hj e => by omega⟩
  · exact ⟨fun _ => by omega, fun e => hs, fun j hj e => by omega, fun j hj e => by omega⟩
  · refine ⟨fun _ => by omega, fun e => by omega, fun j hj e _ => ?_, fun j hj e hh => ?_⟩
    · obtain rfl : i = j := by omega
      exact ⟨hs, hl, hx⟩
    · obtain rfl : i = j := by omega
      exact (not_le.2 ((hlt i).2 hil) hh).elim
  · refine ⟨fun _ => by omega, fun e => by omega, fun j hj e hh => ?_, fun j hj e _ => ?_⟩
    · obtain rfl : i = j := by omega
      exact (not_lt.2 ((hle i).2 hil) hh).elim
    · exact ⟨hs, harr⟩

/-- **C50.** A vehicle alone on its link keeps to its timetable, whatever happens elsewhere in a network of
single trips: it enters the link one step after its departure step and ends its trip after exactly
`⌈length / (u Δt)⌉` movement steps. -/
theorem C50_schedule {W W' : World} {v : VehId} {n : NodeId} {l : LinkId} {k : ℕ}
    (h : Reachable Any W) (hf : W.finalized = true) (hk : W.T + k ≤ W.tsize)
    (ha : Alone v n l W) (hsingle : ∀ u, u < W.nVeh → W.V.mode u = .single)
    (hu : 0 < W.L.u l) (hlen : 0 < W.L.length l) (hcap : (W.dn : ℚ) ≤ W.L.capInRem l)
    (hs : W.V.state v = .home) (hT : (W.T : ℤ) ≤ W.V.depTime v) (ht : ticks k W = .ok W') :
    OnSchedule v l (W.V.depTime v) (W.L.u l * W.dt) (W.L.length l) W' := by
  have hd0 : 0 < W.L.u l * W.dt := mul_pos hu ha.dt
  have h0 : Timed v n l (W.V.depTime v) (W.L.u l * W.dt) (W.L.length l) W :=
    ⟨ha, rfl, rfl, rfl, .inl ⟨hT, hs, hcap⟩⟩
  generalize W.V.depTime v = D at *
  generalize W.L.u l * W.dt = d at *
  generalize W.L.length l = len at *
  clear ha hu hcap hs hT
  induction k generalizing W with
  | zero => cases ht; exact h0.onSchedule hd0 hlen
  | succ k ih =>
    simp only [ticks] at ht
    rw [bind_ok] at ht
    obtain ⟨W1, h1, h2⟩ := ht
    obtain ⟨a1, a2, a3, a4, -⟩ := tick_frame h.inv hf h1
    have hr : Reachable Any W1 := h.next (.tick hf (by omega) h1) trivial
    have hst : W1.nVeh = W.nVeh ∧ W1.V.mode = W.V.mode := by
      obtain ⟨X, hx, rfl⟩ := tick_ok h1
      obtain ⟨X6, hs, rfl⟩ := step_star (h.inv.core hf) hx
      exact ⟨hs.static.nVeh, hs.static.mode⟩
    refine ih hr a3 (by omega) ?_ h2 (h0.tick hd0 hlen ⟨h.inv.core hf, LInv.reach h⟩ (NoStale.of_single h hsingle) h1)
    rw [hst.1, hst.2]; exact hsingle

/-- **C50.** In a valid scenario the run up to any step of the horizon exists, and the vehicle is on
schedule in it. -/
theorem C50_arrives {W : World} {v : VehId} {n : NodeId} {l : LinkId}
    (h : Valid W) (hf : W.finalized = true)
    (ha : Alone v n l W) (hsingle : ∀ u, u < W.nVeh → W.V.mode u = .single)
    (hu : 0 < W.L.u l) (hlen : 0 < W.L.length l) (hcap : (W.dn : ℚ) ≤ W.L.capInRem l)
    (hs : W.V.state v = .home) (hT : (W.T : ℤ) ≤ W.V.depTime v)
    (hend : W.V.depTime v + 1 + ⌈W.L.length l / (W.L.u l * W.dt)⌉ ≤ W.tsize) :
    ∃ W', ticks (W.tsize - W.T) W = .ok W' ∧ W'.V.state v = .ended ∧
      W'.V.arrTime v = W.V.depTime v + ⌈W.L.length l / (W.L.u l * W.dt)⌉ := by
  have hTs := (T_le (valid_plain h)).1 hf
  obtain ⟨W', h1, h2⟩ := C34_ticks_partial h hf (k := W.tsize - W.T) (by omega)
  have hr := (valid_plain h).any
  have hsch := C50_schedule hr hf (by omega) ha hsingle hu hlen hcap hs hT h1
  have hT' := (ticks_reach hr hf (by omega) h1).2.2.1
  have hd0 : 0 < W.L.u l * W.dt := mul_pos hu ha.dt
  have hpos : 0 < ⌈W.L.length l / (W.L.u l * W.dt)⌉ := Int.ceil_pos.2 (div_pos hlen hd0)
  refine ⟨W', h1, hsch.done (W.tsize - (W.V.depTime v + 1)).toNat (by omega) (by omega) ?_⟩
  have hc := Int.le_ceil (W.L.length l / (W.L.u l * W.dt))
  refine hc.trans ?_
  have : ⌈W.L.length l / (W.L.u l * W.dt)⌉ ≤ (((W.tsize : ℤ) - (W.V.depTime v + 1)).toNat : ℤ) := by omega
  exact_mod_cast this

/-- Two links; vehicle 0 has the first for itself, vehicles 1 and 2 share the second. -/
def loneDemo : List Cmd :=
  [.node { name := "a" }, .node { name := "b" }, .node { name := "c" },
   .link { startN := .obj 0, endN := .obj 1, length := 250 },
   .link { startN := .obj 2, endN := .obj 1, length := 100 },
   .veh { orig := .obj 0, dest := some (.obj 1), dep := .step 2 },
   .veh { orig := .obj 2, dest := some (.obj 1), dep := .step 0 },
   .veh { orig := .obj 2, dest := some (.obj 1), dep := .step 0 },
   .fin (some 300), .tick]

theorem runPlain_cfg {cfg rng cs W} (h : runPlain cfg rng cs = .ok W) : W.cfg = cfg :=
  (foldlM_inv (P := fun W => Reachable Any W ∧ W.cfg = cfg) (fun W c W' _ hr hc => by
    split at hc
    · rename_i hp
      have ha := (c.plain_call hp hc).api
      exact ⟨hr.1.next ha trivial, (ha.cfg hr.1.inv).trans hr.2⟩
    · cases hc) ⟨.new trivial, rfl⟩ h).2

set_option maxRecDepth 100000 in
/-- Vehicle 0 departs in step 2 and needs three steps of 100 m for its link of 250 m: it arrives in step 5,
after the other two vehicles have started. -/
example : ∃ W, Valid W ∧ W.T = 1 ∧ Alone 0 0 0 W ∧ W.V.state 0 = .home ∧ W.V.state 1 = .wait ∧
    ∃ W', ticks (W.tsize - W.T) W = .ok W' ∧ W'.V.state 0 = .ended ∧ W'.V.arrTime 0 = 5 := by
  have h : obs (runPlain demoCfg (fun _ => 0) loneDemo) (fun W => decide (W.finalized = true ∧ W.T = 1 ∧
      W.nVeh = 3 ∧ W.V.orig 0 = 0 ∧ W.V.orig 1 = 2 ∧ W.V.orig 2 = 2 ∧ W.N.outlinks 0 = [0] ∧
      W.N.inlinks 0 = [] ∧ W.V.mode 0 = .single ∧ W.V.mode 1 = .single ∧ W.V.mode 2 = .single ∧
      W.V.dest 0 = some 1 ∧ W.L.endN 0 = 1 ∧ W.L.vehs 0 = [] ∧ 0 ≤ W.L.capIn 0) &&
      decide (W.L.u 0 = 20 ∧ W.L.length 0 = 250 ∧ (W.dn : ℚ) ≤ W.L.capInRem 0 ∧ W.V.state 0 = .home ∧
      W.V.state 1 = .wait ∧ W.V.depTime 0 = 2 ∧ W.tsize = 60 ∧ W.dt = 5)) = true := by decide +kernel
  obtain ⟨W, hW, hp⟩ := obs_ok h
  simp only [Bool.and_eq_true, decide_eq_true_eq] at hp
  obtain ⟨⟨a1, a2, a3, a4, a5, a6, a7, a8, a9, a10, a11, a12, a13, a14, a15⟩,
    b1, b2, b3, b4, b5, b6, b7, b8⟩ := hp
  have hv : Valid W := runPlain_valid (by unfold PlainConfig demoCfg; norm_num) hW
  have hone : ∀ u, u < W.nVeh → u = 0 ∨ u = 1 ∨ u = 2 := by
    intro u hu; rw [a3] at hu; change u < 3 at hu; change (u : ℕ) = 0 ∨ (u : ℕ) = 1 ∨ (u : ℕ) = 2; omega
  have ha : Alone 0 0 0 W := ⟨by rw [a3]; decide, a4, a7, a8, fun u hu hne => by
      rcases hone u hu with rfl | rfl | rfl
      · exact (hne rfl).elim
      · rw [a5]; decide
      · rw [a6]; decide,
    a9, by rw [a12, a13], by rw [a14]; simp, by rw [runPlain_cfg hW]; rfl, a15, by rw [b8]; norm_num⟩
  have hc : ⌈W.L.length 0 / (W.L.u 0 * W.dt)⌉ = 3 := by
    rw [b1, b2, b8, Int.ceil_eq_iff]; norm_num
  obtain ⟨W', h1, h2, h3⟩ := C50_arrives hv a1 ha (fun u hu => by
      rcases hone u hu with rfl | rfl | rfl
      exacts [a9, a10, a11]) (by rw [b1]; norm_num) (by rw [b2]; norm_num) b3 b4
    (by rw [a2, b6]; decide) (by rw [hc, b6, b7]; decide)
  exact ⟨W, hv, a2, ha, b4, b5, W', h1, h2, by rw [h3, hc, b6]; rfl⟩

end UX
