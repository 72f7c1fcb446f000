import Verif.Props.Demo
import Verif.Proofs.Forward
import Verif.Proofs.TravelTime
import Mathlib.Data.Int.ModEq

/-! Positions (C05), spacing (C06), storage (C27), travel times (C28), speeds (C29), distances (C35).

`PhysOK` is the assumption on parameters: rounding is monotone and keeps zero and its own results;
nonnegative time step, link lengths (representable), free-flow speeds and jam spacings. -/

namespace UX
open World

/-- C05: a running vehicle is on its link, at a position between 0 and the length of the link, for every
rounding. -/
theorem C05_bounds {OK : World → Prop} (hO : ∀ W, OK W → PhysOK W) {W : World} (h : Reachable OK W)
    {v : VehId} (hv : W.V.state v = .run) :
    ∃ l, W.V.link v = some l ∧ 0 ≤ W.V.x v ∧ W.V.x v ≤ W.L.length l := by
  cases hl : W.V.link v with
  | none => exact absurd hl (h.inv.s.run_link v hv)
  | some l =>
    have := (KInv.reach hO h).pos v l hl
    exact ⟨l, rfl, this.1, this.2.1⟩

/-- C05: in one time step a vehicle that passes no node and stays in the network remains on its link and
does not move backwards, for every rounding. -/
theorem C05_forward {OK : World → Prop} (hO : ∀ W, OK W → PhysOK W) {W W' : World} (h : Reachable OK W)
    (hf : W.finalized = true) (ht : W.tick = .ok W') {v : VehId} {l l' : LinkId}
    (hl : W.V.link v = some l) (hl' : W'.V.link v = some l')
    (hp : ∀ n a b ph, Event.pass W.T v n a b ph ∉ W'.trace) : l' = l ∧ W.V.x v ≤ W'.V.x v := by
  obtain ⟨W1, h1, rfl⟩ := tick_ok ht
  rcases (Fwd.step h.inv hf (hO W h.ok) (KInv.reach hO h) h1).fwd v l hl l' hl' with ⟨n, a, b, ph, hm⟩ | hm
  · exact absurd hm (hp n a b ph)
  · exact hm

/-- Positions decrease by at least the jam spacing every `lanes` places. -/
theorem GapI.chain {W : World} (hS : SInv W) (hL : LInv W) (hok : PhysOK W) (hk : KInv W) (hg : GapI W)
    {l : LinkId} (hl : l < W.nLinks) {i q : ℕ} {v w : VehId} (hw : (W.L.vehs l)[i]? = some w)
    (hv : (W.L.vehs l)[i + (q + 1) * W.L.lanes l]? = some v) :
    W.V.x v ≤ W.fl (W.V.x w - W.gap l) := by
  have hpos := hS.lanes_pos l hl
  induction q generalizing v with
  | zero =>
    have hlead := (hL.ok l hl).lead _ v hv
    rw [if_neg (by omega), show i + (0 + 1) * W.L.lanes l - W.L.lanes l = i by omega, hw] at hlead
    exact hg.g v w l (hS.vehs_link l v (List.mem_of_getElem? hv)) hlead
  | succ q ih =>
    have hlt := (List.getElem?_eq_some_iff.mp hv).1
    have he : i + (q + 1 + 1) * W.L.lanes l = i + (q + 1) * W.L.lanes l + W.L.lanes l := by ring
    obtain ⟨u, hu⟩ : ∃ u, (W.L.vehs l)[i + (q + 1) * W.L.lanes l]? = some u :=
      ⟨_, List.getElem?_eq_getElem (by omega)⟩
    have hlead := (hL.ok l hl).lead _ v hv
    rw [if_neg (by omega), show i + (q + 1 + 1) * W.L.lanes l - W.L.lanes l = i + (q + 1) * W.L.lanes l
      by omega, hu] at hlead
    have h1 := hg.g v u l (hS.vehs_link l v (List.mem_of_getElem? hv)) hlead
    have h2 := ih hu
    have h3 := (hk.pos u l (hS.vehs_link l u (List.mem_of_getElem? hu))).2.2
    have h4 : 0 ≤ W.gap l := hok.gap_nonneg hl
    exact h1.trans ((hok.fl.fl_le h3 (by linarith)).trans h2)

/-- C06: of two vehicles in the same lane of a link, the one that entered later is at least the jam
spacing behind the other (rounded difference). Worlds that may contain taxis: it is assumed that no taxi
waits at a node with a choice made at an earlier node (which happens only with a destination list that
contains a node twice in a row). -/
theorem C06_spacing {OK : World → Prop} (hO : ∀ W, OK W → PhysOK W ∧ NoStale W) {W : World}
    (h : Reachable OK W) {l : LinkId} (hl : l < W.nLinks) {i j : ℕ} (hij : i < j) {v w : VehId}
    (hw : (W.L.vehs l)[i]? = some w) (hv : (W.L.vehs l)[j]? = some v) (hlane : W.V.lane v = W.V.lane w) :
    W.V.x v ≤ W.fl (W.V.x w - W.fl (W.L.deltaPerLane l * W.dn)) := by
  have hL := LInv.reach h
  have hS := h.inv.s
  have hP := (hO W h.ok).1
  obtain ⟨m, rfl⟩ := Nat.exists_eq_add_of_lt hij
  have hm := (hL.ok l hl).lane_add hw (m + 1) hv
  rw [hlane] at hm
  have hlt := (hL.ok l hl).lt w (List.mem_of_getElem? hw)
  have hdvd : W.L.lanes l ∣ m + 1 := by
    have h1 : (W.V.lane w + (m + 1)) % W.L.lanes l = (W.V.lane w + 0) % W.L.lanes l := by
      rw [← hm, Nat.add_zero, Nat.mod_eq_of_lt hlt]
    exact (Nat.modEq_zero_iff_dvd.mp (Nat.ModEq.add_left_cancel' _ h1))
  obtain ⟨q, hq⟩ := hdvd
  have hq0 : q ≠ 0 := by rintro rfl; omega
  obtain ⟨q, rfl⟩ := Nat.exists_eq_succ_of_ne_zero hq0
  rw [Nat.mul_comm, show i + m + 1 = i + (m + 1) by omega] at *
  rw [hq] at hv
  exact (GapI.reach hO h).chain hS hL hP (KInv.reach (fun W h => (hO W h).1) h) hl hw hv

/-- C06 for worlds with single-trip vehicles only; no further assumption. -/
theorem C06_spacing_single {OK : World → Prop}
    (hO : ∀ W, OK W → PhysOK W ∧ ∀ v, v < W.nVeh → W.V.mode v = .single) {W : World}
    (h : Reachable OK W) {l : LinkId} (hl : l < W.nLinks) {i j : ℕ} (hij : i < j) {v w : VehId}
    (hw : (W.L.vehs l)[i]? = some w) (hv : (W.L.vehs l)[j]? = some v) (hlane : W.V.lane v = W.V.lane w) :
    W.V.x v ≤ W.fl (W.V.x w - W.fl (W.L.deltaPerLane l * W.dn)) :=
  C06_spacing (OK := fun W => OK W ∧ NoStale W) (fun W h => ⟨(hO W h.1).1, h.2⟩)
    (h.strengthen (fun W h => NoStale.of_single h (hO W h.ok).2)) hl hij hw hv hlane

/-- C06: vehicles of one lane never overtake each other, for every rounding. -/
theorem C06_order {OK : World → Prop}
    (hO : ∀ W, OK W → PhysOK W ∧ ∀ v, v < W.nVeh → W.V.mode v = .single) {W : World}
    (h : Reachable OK W) {l : LinkId} (hl : l < W.nLinks) {i j : ℕ} (hij : i < j) {v w : VehId}
    (hw : (W.L.vehs l)[i]? = some w) (hv : (W.L.vehs l)[j]? = some v) (hlane : W.V.lane v = W.V.lane w) :
    W.V.x v ≤ W.V.x w := by
  have h1 := C06_spacing_single hO h hl hij hw hv hlane
  have hP := (hO W h.ok).1
  have h3 := ((KInv.reach (fun W h => (hO W h).1) h).pos w l
    (h.inv.s.vehs_link l w (List.mem_of_getElem? hw))).2.2
  have h4 : 0 ≤ W.gap l := hP.gap_nonneg hl
  exact h1.trans (hP.fl.fl_le h3 (by unfold World.gap at h4; linarith))

/-- C27: exact arithmetic, positive spacing `g = delta_per_lane·DELTAN`: a link holds at most
`lanes·(length/g + 1)` vehicles (platoons). -/
theorem C27_storage {OK : World → Prop} (hO : ∀ W, OK W → PhysOK W ∧ NoStale W) {W : World}
    (h : Reachable OK W) (hfl : W.cfg.fl = id) {l : LinkId} (hl : l < W.nLinks)
    (hg : 0 < W.L.deltaPerLane l * W.dn) :
    ((W.L.vehs l).length : ℚ) ≤ W.L.lanes l * (W.L.length l / (W.L.deltaPerLane l * W.dn) + 1) := by
  have hL := LInv.reach h
  have hS := h.inv.s
  have hP := (hO W h.ok).1
  have hK := KInv.reach (fun W h => (hO W h).1) h
  have hlen := (hP.len l hl).1
  have hk := hS.lanes_pos l hl
  set k := W.L.lanes l with hkdef
  set g := W.L.deltaPerLane l * W.dn with hgdef
  rcases Nat.eq_zero_or_pos (W.L.vehs l).length with h0 | h0
  · rw [h0]
    push_cast
    positivity
  · -- position bound along the link
    have key : ∀ q i v, (W.L.vehs l)[i + q * k]? = some v → W.V.x v ≤ W.L.length l - q * g := by
      intro q
      induction q with
      | zero =>
        intro i v hv
        have := (hK.pos v l (hS.vehs_link l v (List.mem_of_getElem? hv))).2.1
        push_cast
        linarith
      | succ q ih =>
        intro i v hv
        have hlt := (List.getElem?_eq_some_iff.mp hv).1
        have he : i + (q + 1) * k = i + q * k + (0 + 1) * k := by ring
        obtain ⟨u, hu⟩ : ∃ u, (W.L.vehs l)[i + q * k]? = some u :=
          ⟨_, List.getElem?_eq_getElem (by omega)⟩
        rw [he] at hv
        have h1 := (GapI.reach hO h).chain hS hL hP hK hl hu hv
        have h2 := ih i u hu
        unfold World.gap World.fl at h1
        rw [hfl] at h1
        simp only [id] at h1
        push_cast
        rw [← hgdef] at h1
        linarith
    set N := (W.L.vehs l).length with hN
    obtain ⟨v, hv⟩ : ∃ v, (W.L.vehs l)[N - 1]? = some v := ⟨_, List.getElem?_eq_getElem (by omega)⟩
    have hdm := Nat.mod_add_div (N - 1) k
    have hml := Nat.mod_lt (N - 1) (show 0 < k by omega)
    have h1 := key ((N - 1) / k) ((N - 1) % k) v (by rw [Nat.mul_comm ((N - 1) / k), hdm]; exact hv)
    have h2 := (hK.pos v l (hS.vehs_link l v (List.mem_of_getElem? hv))).1
    have h3 : (((N - 1) / k : ℕ) : ℚ) ≤ W.L.length l / g := by
      rw [le_div_iff₀ hg]; linarith
    have h4 : N ≤ k * ((N - 1) / k + 1) := by
      rw [Nat.mul_add, Nat.mul_one]
      generalize k * ((N - 1) / k) = y at *
      omega
    have h5 : (N : ℚ) ≤ k * (((N - 1) / k : ℕ) + 1) := by exact_mod_cast h4
    refine h5.trans ?_
    have : (0 : ℚ) ≤ k := by positivity
    exact mul_le_mul_of_nonneg_left (by linarith) this

/-- C27 for worlds with single-trip vehicles only. -/
theorem C27_storage_single {OK : World → Prop}
    (hO : ∀ W, OK W → PhysOK W ∧ ∀ v, v < W.nVeh → W.V.mode v = .single) {W : World}
    (h : Reachable OK W) (hfl : W.cfg.fl = id) {l : LinkId} (hl : l < W.nLinks)
    (hg : 0 < W.L.deltaPerLane l * W.dn) :
    ((W.L.vehs l).length : ℚ) ≤ W.L.lanes l * (W.L.length l / (W.L.deltaPerLane l * W.dn) + 1) :=
  C27_storage (OK := fun W => OK W ∧ NoStale W) (fun W h => ⟨(hO W h.1).1, h.2⟩)
    (h.strengthen (fun W h => NoStale.of_single h (hO W h.ok).2)) hfl hl hg

theorem NotFaster.split {len u : LinkId → ℚ} {dt : ℚ} {post : List Event} {e : Event} {pre : List Event}
    (h : NotFaster len u dt (post ++ e :: pre)) : NotFaster len u dt (e :: pre) := by
  induction post with
  | nil => exact h
  | cons d post ih => exact ih h.1

/-- C28: exact arithmetic, free-flow speeds `u0` never changed. A vehicle that passes from link `a` to
the next link in step `T` had entered `a` in an earlier step `T0`, and has spent at least the free-flow
travel time minus one time step on it. (`pre` are the events before.) -/
theorem C28_pass {u0 : LinkId → ℚ} {OK : World → Prop} (hO : ∀ W, OK W → ExactOK u0 W) {W : World}
    (h : Reachable OK W) {post pre : List Event} {T v n a b ph}
    (ht : W.trace = post ++ .pass T v n a b ph :: pre) : ∃ T0 : ℕ, lastTake v pre = some (T0, a) ∧
      W.L.length a / u0 a - W.dt ≤ (T * W.dt - T0 * W.dt : ℚ) := by
  have hn := (TT.reach hO h).hist
  rw [ht] at hn
  obtain ⟨-, T0, h1, h2, h3⟩ := hn.split
  exact ⟨T0, h1, by unfold World.dt; linarith⟩

/-- C28: the same for the last link of a trip; the trip ends at the end of step `T`. -/
theorem C28_finish {u0 : LinkId → ℚ} {OK : World → Prop} (hO : ∀ W, OK W → ExactOK u0 W) {W : World}
    (h : Reachable OK W) {post pre : List Event} {T v a ab}
    (ht : W.trace = post ++ .finish T v a ab :: pre) : ∃ T0 : ℕ, lastTake v pre = some (T0, a) ∧
      W.L.length a / u0 a - W.dt ≤ ((T + 1) * W.dt - T0 * W.dt : ℚ) := by
  have hn := (TT.reach hO h).hist
  rw [ht] at hn
  obtain ⟨-, T0, h1, h2, h3⟩ := hn.split
  exact ⟨T0, h1, by unfold World.dt; linarith⟩

/-- C28: every recorded actual link travel time is at least the free-flow time minus one time step. -/
theorem C28_recorded {u0 : LinkId → ℚ} {OK : World → Prop} (hO : ∀ W, OK W → ExactOK u0 W) {W : World}
    (h : Reachable OK W) (hf : W.finalized = true) {l : LinkId} (hl : l < W.nLinks) {q : ℚ}
    (hq : q ∈ W.L.ttActual l) : W.L.length l / u0 l - W.dt ≤ q :=
  (TT.reach hO h).act hf l hl q hq

/-- C29: exact arithmetic. Right after a step a running vehicle has a speed between 0 and the free-flow
speed of its link. -/
theorem C29_speed {OK : World → Prop} (hO : ∀ W, OK W → PhysOK W) {W W' : World} (h : Reachable OK W)
    (hfl : W.cfg.fl = id) (hdt : 0 < W.dt) (hf : W.finalized = true) (ht : W.tick = .ok W') {v : VehId}
    (hv : W'.V.state v = .run) : ∃ l, W'.V.link v = some l ∧ 0 ≤ W'.V.v v ∧ W'.V.v v ≤ W'.L.u l := by
  obtain ⟨W1, h1, rfl⟩ := tick_ok ht
  obtain ⟨W6, hc, hst, rfl, -, -, hm⟩ := step_kin h.inv hf (hO W h.ok) (KInv.reach hO h) h1
  have hv' : W6.V.state v = .run := hv
  cases hl : W6.V.link v with
  | none => exact absurd hl (hc.s.run_link v hv')
  | some l =>
    obtain ⟨m1, m2, m3⟩ := (hm v).ok l hl
    have hfl' : W6.cfg.fl = id := by rw [hst.cfg]; exact hfl
    have hdt' : 0 < W6.cfg.deltat := by rw [hst.cfg]; exact hdt
    rw [hfl'] at m2 m3
    simp only [id] at m2 m3
    refine ⟨l, rfl, ?_, ?_⟩
    · show 0 ≤ W6.V.v v
      rw [m3]
      exact div_nonneg (by linarith) hdt'.le
    · show W6.V.v v ≤ W6.L.u l
      rw [m3, div_le_iff₀ hdt']
      linarith

/-- C35, what holds: exact arithmetic, free-flow speeds `u0` never changed. The counted distance is never
more than the length of the links passed plus the position on the current link, and falls short of it by
at most one free-flow step for every node passed. Missing for C35: the movement carried over a node is
not counted (`C35_false`). -/
theorem C35_distance_partial {u0 : LinkId → ℚ} {OK : World → Prop} (hO : ∀ W, OK W → ExactOK u0 W)
    {W : World} (h : Reachable OK W) (v : VehId) :
    let d := passedLength W.L.length v W.trace + (if W.V.link v = none then 0 else W.V.x v)
    W.V.dist v ≤ d ∧ d ≤ W.V.dist v + carryBound u0 W.dt v W.trace :=
  ⟨(DI.reach hO h).le v, (DI.reach hO h).ge v⟩

/-- C35 holds until the first node is passed. -/
theorem C35_first_link {u0 : LinkId → ℚ} {OK : World → Prop} (hO : ∀ W, OK W → ExactOK u0 W)
    {W : World} (h : Reachable OK W) {v : VehId} (hp : passCount v W.trace = 0) :
    W.V.dist v = passedLength W.L.length v W.trace + (if W.V.link v = none then 0 else W.V.x v) :=
  (DI.reach hO h).eq v hp

/-! ### Witnesses -/

theorem flOK_id : FlOK id := ⟨fun _ _ h => h, rfl, fun _ => rfl⟩

/-- test of the parameters of a world in exact arithmetic with free-flow speed 20 -/
def physCheck (W : World) : Bool :=
  decide ((∀ l < W.nLinks, 0 ≤ W.L.length l ∧ W.L.u l = 20 ∧ 0 ≤ W.L.deltaPerLane l) ∧
    ∀ v < W.nVeh, W.V.mode v = .single)

theorem physCheck_ok {W : World} (hc : W.cfg = demoCfg) (h : physCheck W = true) :
    ExactOK (fun _ => 20) W ∧ ∀ v, v < W.nVeh → W.V.mode v = .single := by
  unfold physCheck at h
  obtain ⟨h1, h2⟩ := of_decide_eq_true h
  refine ⟨⟨⟨?_, ?_, fun l hl => ⟨(h1 l hl).1, ?_⟩, fun l hl => ?_, fun l hl => (h1 l hl).2.2⟩, ?_,
    fun l hl => ⟨(h1 l hl).2.1, by norm_num⟩⟩, h2⟩
  · rw [hc]; exact flOK_id
  · rw [hc]; decide +kernel
  · rw [hc]; rfl
  · rw [(h1 l hl).2.1]; norm_num
  · rw [hc]; rfl

set_option maxRecDepth 100000 in
/-- The hypotheses of C05, C06, C27, C28, C29 are met by a history in which two vehicles are behind each
other in a lane, a vehicle has passed a node and one has finished. -/
theorem kinematics_witness : ∃ W, Reachable (fun W => ExactOK (fun _ => 20) W ∧
      ∀ v, v < W.nVeh → W.V.mode v = .single) W ∧ W.finalized = true ∧ W.L.vehs 0 = [2, 3] ∧
      W.V.lane 3 = W.V.lane 2 ∧ W.V.x 2 = 200 ∧ W.V.x 3 = 75 ∧ W.fl (W.L.deltaPerLane 0 * W.dn) = 25 ∧
      W.L.u 0 = 20 ∧ (∃ e ∈ W.trace, e = .pass 5 1 1 0 1 0) ∧ (∃ e ∈ W.trace, e = .finish 4 0 1 false) := by
  have h : obs (runChecked physCheck demoCfg (fun _ => 0) (demo2 6)) (fun W => decide (
      W.finalized = true ∧ W.L.vehs 0 = [2, 3] ∧
      W.V.lane 3 = W.V.lane 2 ∧ W.V.x 2 = 200 ∧ W.V.x 3 = 75 ∧ W.fl (W.L.deltaPerLane 0 * W.dn) = 25 ∧
      W.L.u 0 = 20 ∧ (∃ e ∈ W.trace, e = .pass 5 1 1 0 1 0) ∧
      (∃ e ∈ W.trace, e = .finish 4 0 1 false))) = true := by
    decide +kernel
  obtain ⟨W, h1, h2⟩ := obs_ok h
  exact ⟨W, runChecked_reachable' (fun W hc hp => physCheck_ok hc hp) h1, of_decide_eq_true h2⟩

set_option maxRecDepth 100000 in
/-- C35 is false of the code: vehicle 1 has finished a trip over two links of 200 m, but the distance
counted is 325 m, because the 75 m it was carried over the node are not counted. -/
theorem C35_false : ∃ W, Reachable (fun W => ExactOK (fun _ => 20) W ∧
      ∀ v, v < W.nVeh → W.V.mode v = .single) W ∧ W.V.state 1 = .ended ∧ W.V.link 1 = none ∧
      W.V.dist 1 = 325 ∧ passedLength W.L.length 1 W.trace = 400 := by
  have h : obs (runChecked physCheck demoCfg (fun _ => 0) (demo2 8)) (fun W => decide (
      W.V.state 1 = .ended ∧ W.V.link 1 = none ∧
      W.V.dist 1 = 325 ∧ passedLength W.L.length 1 W.trace = 400)) = true := by
    decide +kernel
  obtain ⟨W, h1, h2⟩ := obs_ok h
  exact ⟨W, runChecked_reachable' (fun W hc hp => physCheck_ok hc hp) h1, of_decide_eq_true h2⟩

end UX
