import Verif.Proofs.TraceExt
import Verif.Model.Query
import Verif.Props.Demo

/-! C02, C03, C42: cumulative counts. -/

namespace UX
open World Relation

/-! ### C02 -/

theorem countUpTo_all {f : Event → Option VehId} {tr : List Event} {i : ℕ} (h : ∀ e ∈ tr, e.at ≤ i) :
    countUpTo f tr i = (history f tr).length := by
  unfold countUpTo history
  rw [List.length_reverse, List.length_filterMap_eq_countP]
  apply List.countP_congr
  intro e he
  simp [h e he]

/-- C02: both curves end at DELTAN times the number of vehicles that ever entered / left the link
(according to the event history). -/
theorem C02_totals {W : World} (h : Reachable Any W) {l : LinkId} (hl : l < W.nLinks) (hT : 1 ≤ W.T) :
    (W.L.cumArr l).head? = some (W.dn * (history (enters l) W.trace).length) ∧
    (W.L.cumDep l).head? = some (W.dn * (history (leaves l) W.trace).length) := by
  have hc := CInv.reach h
  obtain ⟨k, hk⟩ : ∃ k, W.T = k + 1 := ⟨W.T - 1, by omega⟩
  have hle : ∀ e ∈ W.trace, e.at ≤ k := fun e he => by have := hc.lt e he; omega
  rw [hc.arr l hl, hc.dep l hl, Nat.add_zero, hk, curve_succ, curve_succ, countUpTo_all hle,
    countUpTo_all hle]
  exact ⟨rfl, rfl⟩

/-- C02: cumulative arrivals minus cumulative departures is DELTAN times the number of vehicles on
the link. -/
theorem C02_balance {W : World} (h : Reachable Any W) {l : LinkId} (hl : l < W.nLinks) (hT : 1 ≤ W.T) :
    ∃ a d, (W.L.cumArr l).head? = some a ∧ (W.L.cumDep l).head? = some d ∧
      a = d + W.dn * (W.L.vehs l).length := by
  obtain ⟨h1, h2⟩ := C02_totals h hl hT
  refine ⟨_, _, h1, h2, ?_⟩
  rw [(TInv.reach h).fifo l, List.length_append, Nat.mul_add]

/-! ### C03 -/

/-- C03: the curves have one point per executed step; point `i` is DELTAN times the number of vehicles
that entered (left) the link in steps `0..i`. -/
theorem C03_points {W : World} (h : Reachable Any W) {l : LinkId} (hl : l < W.nLinks) :
    (W.L.cumArr l).reverse = (List.range W.T).map (fun i => W.dn * countUpTo (enters l) W.trace i) ∧
    (W.L.cumDep l).reverse = (List.range W.T).map (fun i => W.dn * countUpTo (leaves l) W.trace i) := by
  have hc := CInv.reach h
  rw [hc.arr l hl, hc.dep l hl]
  simp [curve, World.dn]

theorem countUpTo_mono {f : Event → Option VehId} {tr : List Event} {i j : ℕ} (h : i ≤ j) :
    countUpTo f tr i ≤ countUpTo f tr j := by
  unfold countUpTo
  apply List.countP_mono_left
  intro e _ he
  simp only [Bool.and_eq_true, decide_eq_true_eq] at he ⊢
  exact ⟨he.1, he.2.trans h⟩

/-- The departures never exceed the arrivals, at any step. -/
theorem countUpTo_le {OK : World → Prop} {W : World} (h : Reachable OK W) (l : LinkId) (i : ℕ) :
    countUpTo (leaves l) W.trace i ≤ countUpTo (enters l) W.trace i := by
  have tot : ∀ {W : World}, Reachable OK W → ∀ i, W.T ≤ i + 1 →
      countUpTo (leaves l) W.trace i ≤ countUpTo (enters l) W.trace i := by
    intro W h i hi
    have hle : ∀ e ∈ W.trace, e.at ≤ i := fun e he => by have := (CInv.reach h).lt e he; omega
    rw [countUpTo_all hle, countUpTo_all hle, (TInv.reach h).fifo l, List.length_append]
    omega
  induction h generalizing i with
  | new h => simp [World.new, countUpTo]
  | @next W W' hr hs hok ih =>
    rcases api_trace hr.inv hs with ⟨h1, -⟩ | ⟨hf, hT, new, h1, h2⟩
    · rw [h1]; exact ih i
    · by_cases hi : W.T ≤ i
      · exact tot (.next hr hs hok) i (by omega)
      · rw [h1, countUpTo_append, countUpTo_append]
        · exact ih i
        · intro e he; rw [h2 e he]; omega
        · intro e he; rw [h2 e he]; omega

/-- C03: nondecreasing in time. -/
theorem C03_monotone {W : World} (h : Reachable Any W) {l : LinkId} (hl : l < W.nLinks) :
    (W.L.cumArr l).reverse.Pairwise (· ≤ ·) ∧ (W.L.cumDep l).reverse.Pairwise (· ≤ ·) := by
  rw [(C03_points h hl).1, (C03_points h hl).2, List.pairwise_map, List.pairwise_map]
  constructor <;> refine List.pairwise_lt_range.imp ?_ <;> intro i j hij <;>
    exact Nat.mul_le_mul_left _ (countUpTo_mono hij.le)

/-- C03: the departure curve never exceeds the arrival curve. -/
theorem C03_no_crossing {W : World} (h : Reachable Any W) {l : LinkId} (hl : l < W.nLinks) :
    List.Forall₂ (· ≤ ·) (W.L.cumDep l) (W.L.cumArr l) := by
  have hc := CInv.reach h
  rw [hc.arr l hl, hc.dep l hl]
  unfold curve
  rw [List.forall₂_map_left_iff, List.forall₂_map_right_iff, List.forall₂_same]
  intro i _
  exact Nat.mul_le_mul_left _ (countUpTo_le h l i)

/-- C03: a time step adds exactly one point to both curves and leaves all earlier ones alone. -/
theorem C03_step {W W' : World} (h : Reachable Any W) (hf : W.finalized = true) (hT : W.T < W.tsize)
    (ht : W.tick = .ok W') {l : LinkId} (hl : l < W.nLinks) :
    (∃ a, W'.L.cumArr l = a :: W.L.cumArr l) ∧ (∃ d, W'.L.cumDep l = d :: W.L.cumDep l) := by
  have hr' : Reachable Any W' := .next h (.tick hf hT ht) trivial
  have hc := CInv.reach h
  have hc' := CInv.reach hr'
  obtain ⟨new, h1, h2⟩ := tick_ext h.inv hf ht
  obtain ⟨W1, hst, rfl⟩ := tick_ok ht
  obtain ⟨W6, hps, rfl⟩ := step_star (h.inv.core hf) hst
  have hst := hps.static
  have hl' : l < W6.nLinks := by rw [hst.nLinks]; exact hl
  have key : ∀ f, curve W.cfg.deltan f (new ++ W.trace) W.T = curve W.cfg.deltan f W.trace W.T := by
    intro f
    unfold curve
    apply List.map_congr_left
    intro i hi
    rw [countUpTo_append]
    intro e he
    simp at hi
    rw [h2 e he]; exact hi
  have e1 := hc'.arr l hl'
  have e2 := hc'.dep l hl'
  dsimp only at e1 e2 h1
  rw [h1, hst.cfg, hst.T, Nat.add_zero, curve_succ, key] at e1 e2
  have e3 := hc.arr l hl
  have e4 := hc.dep l hl
  rw [Nat.add_zero] at e3 e4
  exact ⟨⟨_, by rw [e3]; exact e1⟩, ⟨_, by rw [e4]; exact e2⟩⟩

theorem nLinks_mono {W W' : World} (h : Inv W) (hs : ApiStep W W') : W.nLinks ≤ W'.nLinks := by
  rcases hs.kinds with ⟨hf, a, ph, t, soff, hn, rfl⟩ | ⟨hf, a, ha⟩ | ⟨a, ha⟩ | ⟨hf, tm, rfl⟩ |
    ⟨hf, hT, ht⟩ | hs | hs
  · exact le_rfl
  · obtain ⟨s, e, nm, k, p, -, -, -, -, -, -, rfl⟩ := addLink_ok ha
    exact Nat.le_succ _
  · obtain ⟨o, d, dep, pref, cache, lp, la, nm, -, -, -, -, -, -, -, -, rfl⟩ := addVehicle_ok ha
    exact le_rfl
  · obtain ⟨ts, tta, fc, fr, la, hr⟩ := finalize_frame W tm
    rw [hr]
  · obtain ⟨W1, h1, rfl⟩ := tick_ok ht
    obtain ⟨W6, hps, rfl⟩ := step_star (h.core hf) h1
    exact le_of_eq hps.static.nLinks.symm
  · obtain ⟨_, _, _, _, _, _, _, rfl, hd⟩ := hs
    exact le_rfl
  · obtain ⟨_, _, _, _, _, _, _, _, _, _, _, _, _, _, _, _, _, _, _, rfl, -⟩ := hs
    exact le_rfl

/-- C03: over any further history the recorded points stay as they are (the old list is a suffix of
the new one; the lists are newest-first). -/
theorem C03_history {W W' : World} (h : Reachable Any W) (hs : ReflTransGen ApiStep W W') {l : LinkId}
    (hl : l < W.nLinks) : W.L.cumArr l <:+ W'.L.cumArr l ∧ W.L.cumDep l <:+ W'.L.cumDep l := by
  have : Reachable Any W' ∧ l < W'.nLinks ∧ W.L.cumArr l <:+ W'.L.cumArr l ∧
      W.L.cumDep l <:+ W'.L.cumDep l := by
    induction hs with
    | refl => exact ⟨h, hl, List.suffix_rfl, List.suffix_rfl⟩
    | @tail A B _ hs ih =>
      obtain ⟨hr, hlA, h1, h2⟩ := ih
      have hrB : Reachable Any B := .next hr hs trivial
      refine ⟨hrB, lt_of_lt_of_le hlA (nLinks_mono hr.inv hs), ?_⟩
      have same : B.L.cumArr l = A.L.cumArr l → B.L.cumDep l = A.L.cumDep l →
          W.L.cumArr l <:+ B.L.cumArr l ∧ W.L.cumDep l <:+ B.L.cumDep l :=
        fun e1 e2 => by rw [e1, e2]; exact ⟨h1, h2⟩
      rcases hs.kinds with ⟨hf, a, ph, t, soff, hn, rfl⟩ | ⟨hf, a, ha⟩ | ⟨a, ha⟩ | ⟨hf, tm, rfl⟩ |
        ⟨hf, hT, ht⟩ | hs | hs
      · exact same rfl rfl
      · obtain ⟨s, e, nm, k, p, -, -, -, -, -, -, rfl⟩ := addLink_ok ha
        refine same ?_ ?_ <;> simp [addLinkRes, upd_apply, Nat.ne_of_lt hlA]
      · obtain ⟨o, d, dep, pref, cache, lp, la, nm, -, -, -, -, -, -, -, -, rfl⟩ := addVehicle_ok ha
        exact same rfl rfl
      · obtain ⟨ts, tta, fc, fr, la, hr⟩ := finalize_frame A tm
        rw [hr] at same ⊢
        exact same rfl rfl
      · obtain ⟨⟨a, ha⟩, d, hd⟩ := C03_step hr hf hT ht hlA
        rw [ha, hd]
        exact ⟨h1.trans (List.suffix_cons _ _), h2.trans (List.suffix_cons _ _)⟩
      · obtain ⟨_, _, _, _, _, _, _, rfl, hd⟩ := hs
        exact same rfl rfl
      · obtain ⟨_, _, _, _, _, _, _, _, _, _, _, _, _, _, _, _, _, _, _, rfl, -⟩ := hs
        exact same rfl rfl
  exact this.2.2

/-! ### C42 -/

/-- Step meant by a query at time `t`: the step containing `t`, clipped to the executed ones. -/
def queryStep (W : World) (t : ℚ) : ℕ := min ⌊t / W.dt⌋.toNat (W.T - 1)

theorem readAt_map {g : ℕ → ℕ} {k : ℕ} (hk : 1 ≤ k) (tt : ℤ) :
    readAt ((List.range k).map g) tt = .ok (g (min tt.toNat (k - 1))) := by
  have key : (if (((List.range k).map g).length : ℤ) ≤ tt then ((List.range k).map g).getLast?
      else if tt < 0 then ((List.range k).map g).head? else ((List.range k).map g)[tt.toNat]?) =
      some (g (min tt.toNat (k - 1))) := by
    rw [List.length_map, List.length_range]
    split
    · rename_i h
      rw [Nat.min_eq_right (by omega), List.getLast?_eq_getElem?]
      simp [List.getElem?_range (show k - 1 < k by omega)]
    · split
      · rename_i h1 h2
        rw [show tt.toNat = 0 by omega, Nat.zero_min, List.head?_eq_getElem?]
        simp [List.getElem?_range (show 0 < k by omega)]
      · rename_i h1 h2
        rw [Nat.min_eq_left (by omega)]
        simp [List.getElem?_range (show tt.toNat < k by omega)]
  unfold readAt
  dsimp only
  rw [key]

/-- C42: once a step has run, the count queries are defined at every time (also negative or beyond the
horizon) and count the vehicles that entered / left up to the step containing that time. -/
theorem C42_value {W : World} (h : Reachable Any W) (hT : 1 ≤ W.T) (hdt : W.dt ≠ 0) {l : LinkId}
    (hl : l < W.nLinks) (t : ℚ) :
    W.arrivalCount l t = .ok (W.dn * countUpTo (enters l) W.trace (queryStep W t)) ∧
    W.departureCount l t = .ok (W.dn * countUpTo (leaves l) W.trace (queryStep W t)) := by
  obtain ⟨h1, h2⟩ := C03_points h hl
  unfold arrivalCount departureCount stepIndex
  rw [if_neg hdt, h1, h2]
  change readAt _ _ = _ ∧ readAt _ _ = _
  rw [readAt_map hT, readAt_map hT]
  exact ⟨rfl, rfl⟩

/-- C42: the counts are nondecreasing in the queried time. -/
theorem C42_monotone {W : World} (h : Reachable Any W) (hT : 1 ≤ W.T) (hdt : 0 < W.dt) {l : LinkId}
    (hl : l < W.nLinks) {t t' : ℚ} (ht : t ≤ t') :
    ∃ a a' d d', W.arrivalCount l t = .ok a ∧ W.arrivalCount l t' = .ok a' ∧
      W.departureCount l t = .ok d ∧ W.departureCount l t' = .ok d' ∧ a ≤ a' ∧ d ≤ d' := by
  have h1 := C42_value h hT hdt.ne' hl t
  have h2 := C42_value h hT hdt.ne' hl t'
  refine ⟨_, _, _, _, h1.1, h2.1, h1.2, h2.2, ?_⟩
  have hq : queryStep W t ≤ queryStep W t' := by
    unfold queryStep
    have : ⌊t / W.dt⌋ ≤ ⌊t' / W.dt⌋ := Int.floor_le_floor (div_le_div_of_nonneg_right ht hdt.le)
    omega
  exact ⟨Nat.mul_le_mul_left _ (countUpTo_mono hq), Nat.mul_le_mul_left _ (countUpTo_mono hq)⟩

/-- C42: `num_vehicles_t` is defined everywhere and never negative. -/
theorem C42_nonneg {W : World} (h : Reachable Any W) (hT : 1 ≤ W.T) (hdt : W.dt ≠ 0) {l : LinkId}
    (hl : l < W.nLinks) (t : ℚ) : ∃ k, W.numVehiclesT l t = .ok k ∧ 0 ≤ k := by
  obtain ⟨h1, h2⟩ := C42_value h hT hdt hl t
  refine ⟨_, by unfold numVehiclesT; rw [h1, h2]; rfl, ?_⟩
  have := Nat.mul_le_mul_left W.dn (countUpTo_le h l (queryStep W t))
  omega

/-- C02: at the current time (and later) `num_vehicles_t` is `num_vehicles`. -/
theorem C02_query {W : World} (h : Reachable Any W) (hT : 1 ≤ W.T) (hdt : 0 < W.dt) {l : LinkId}
    (hl : l < W.nLinks) {t : ℚ} (ht : (W.T - 1 : ℚ) * W.dt ≤ t) :
    W.numVehiclesT l t = .ok (W.numVehicles l) := by
  obtain ⟨h1, h2⟩ := C42_value h hT hdt.ne' hl t
  have hq : queryStep W t = W.T - 1 := by
    unfold queryStep
    have : ((W.T - 1 : ℕ) : ℤ) ≤ ⌊t / W.dt⌋ := by
      rw [Int.le_floor, le_div_iff₀ hdt]
      push_cast [Nat.cast_sub hT]
      exact ht
    omega
  have hle : ∀ e ∈ W.trace, e.at ≤ W.T - 1 := fun e he => by have := (CInv.reach h).lt e he; omega
  unfold numVehiclesT
  rw [h1, h2, hq, countUpTo_all hle, countUpTo_all hle, (TInv.reach h).fifo l]
  change Except.ok _ = _
  rw [List.length_append, Nat.mul_add]
  congr 1
  unfold numVehicles
  push_cast
  ring

/-- C42: flow into a link over a nonempty interval is nonnegative. -/
theorem C42_inflow {W : World} (h : Reachable Any W) (hT : 1 ≤ W.T) (hdt : 0 < W.dt) {l : LinkId}
    (hl : l < W.nLinks) {t0 t1 : ℚ} (ht : t0 < t1) : ∃ q, W.inflowBetween l t0 t1 = .ok q ∧ 0 ≤ q := by
  obtain ⟨a, a', -, -, h1, h2, -, -, h3, -⟩ := C42_monotone h hT hdt hl ht.le
  have hne : t1 - t0 ≠ 0 := by linarith
  refine ⟨_, by unfold inflowBetween; rw [h1, h2]; simp only [bind, Except.bind]; rw [if_neg hne]; rfl, ?_⟩
  have : (a : ℚ) ≤ a' := by exact_mod_cast h3
  apply div_nonneg <;> linarith

set_option maxRecDepth 100000 in
/-- Witness: after five steps of `demo2`, vehicles have entered and left, and some are still on the
link. -/
theorem demo2_counts : obs (runCmds demoCfg (fun _ => 0) (demo2 5)) (fun W =>
    decide (W.L.cumArr 0 = [15, 10, 10, 5, 0] ∧ W.L.cumDep 0 = [5, 5, 0, 0, 0] ∧ W.L.vehs 0 = [1, 2] ∧
      W.T = 5 ∧ W.dt = 5)) = true := by
  decide +kernel

end UX
