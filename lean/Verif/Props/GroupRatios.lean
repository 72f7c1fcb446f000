import Verif.Props.OdTable
import Verif.Props.VehTable

/-!
# Delay and detour ratios of vehicle groups (C63)
-/

namespace UX
open World

/-- The row found for a finished vehicle is the one of its nodes. -/
theorem freeRow_ok {W : World} (h : Reachable Any W) (hfl : FlOK W.cfg.fl) (hdt : 0 ≤ W.dt) {v : VehId} {d : NodeId}
    (hv : v < W.nVeh) (hs : W.V.state v = .ended) (hd : W.V.dest v = some d) :
    W.freeRow v = .ok { orig := W.V.orig v, dest := d, time := W.freeTime (W.V.orig v) d
                        dist := W.freeDist (W.V.orig v) d } := by
  have hw : v ∈ W.withDest := by
    unfold withDest; rw [List.mem_filter]; exact ⟨List.mem_range.2 hv, by rw [hd]; rfl⟩
  have hfin : v ∈ W.finished := by
    unfold finished; rw [List.mem_filter]; exact ⟨hw, by simpa using hs⟩
  have hb : v ∈ W.between [W.V.orig v] [d] := by
    unfold between; rw [List.mem_filter]; exact ⟨hw, by simp [hd]⟩
  have hdb : v ∈ W.doneBetween [W.V.orig v] [d] := by
    unfold doneBetween; rw [List.mem_filter]; exact ⟨hfin, by simp [hd]⟩
  have hmem := ((C67_pairs h hfl hdt).2 _).2 ⟨W.V.orig v, d, List.ne_nil_of_mem hb, rfl⟩
  have hcol := C67_free_columns h hfl hdt
  unfold freeRow
  cases hf : W.odFree.find? fun r => decide (r.orig = W.V.orig v) && decide (some r.dest = W.V.dest v) with
  | none =>
    rw [hcol, List.find?_eq_none] at hf
    have := hf _ (List.mem_map_of_mem hmem)
    simp [hd] at this
  | some r =>
    have h1 := List.find?_some hf
    simp only [Bool.and_eq_true, decide_eq_true_eq, hd, Option.some.injEq] at h1
    have h2 := List.mem_of_find?_eq_some hf
    rw [hcol] at h2
    obtain ⟨x, -, rfl⟩ := List.mem_map.1 h2
    dsimp only at h1 ⊢
    rw [h1.1, h1.2]
    simp only [if_neg (List.ne_nil_of_mem hdb)]

/-- Shortest distance reported for the pair of `v`, as a number. -/
def World.distOf (W : World) (v : VehId) : ℚ := (W.freeDist (W.V.orig v) ((W.V.dest v).getD 0)).untopD 0

theorem costSum_pos {f : LinkId → ℚ} {ls : List LinkId} (hne : ls ≠ []) (h : ∀ l ∈ ls, 0 < f l) : 0 < costSum f ls := by
  unfold costSum
  refine List.sum_pos _ ?_ (by simpa using hne)
  intro x hx
  obtain ⟨l, hl, rfl⟩ := List.mem_map.1 hx
  exact h l hl

theorem averageTop_coe (l : List VehId) (f : VehId → Option (WithTop ℚ)) (g : VehId → ℚ)
    (h : ∀ v ∈ l, f v = some ((g v : ℚ) : WithTop ℚ)) :
    averageTop (l.map f) = some ((mean (l.map g) : ℚ) : WithTop ℚ) := by
  have : (l.map f).mapM id = some (l.map fun v => ((g v : ℚ) : WithTop ℚ)) := by
    induction l with
    | nil => rfl
    | cons a l ih =>
      rw [List.map_cons, List.mapM_cons, ih (fun v hv => h v (List.mem_cons_of_mem _ hv)), h a List.mem_cons_self]
      rfl
  unfold averageTop
  rw [this, Option.map_some, sum_coe_top, WithTop.map_coe]
  unfold mean
  simp

/-- C63 in networks without parallel or closed links, for vehicles with different origins and
destinations: the delay ratio is the mean of travel time divided by free-flow time, at least 1, and the
detour ratio is the mean of distance travelled divided by shortest distance. -/
theorem C63_ratios_partial {u0 : LinkId → ℚ} {W : World} (h : Reachable (ExactOK u0) W) (hp : W.Plain)
    {g : List VehId} (hg : ∀ v ∈ g, v < W.nVeh ∧ W.V.dest v ≠ some (W.V.orig v))
    (hne : (g.filter fun v => decide (W.V.state v = .ended)) ≠ []) :
    let done := g.filter fun v => decide (W.V.state v = .ended)
    W.groupRatios g = .ok (some ((mean (done.map fun v => W.V.travelTime v / W.freeOf v) : ℚ) : WithTop ℚ),
      some ((mean (done.map fun v => W.V.dist v / W.distOf v) : ℚ) : WithTop ℚ)) ∧
    1 ≤ mean (done.map fun v => W.V.travelTime v / W.freeOf v) ∧
    ∀ v ∈ done, 0 < W.freeOf v ∧ W.freeOf v ≤ W.V.travelTime v ∧ 0 < W.distOf v := by
  intro done
  have hok : ExactOK u0 W := h.ok
  have h' := h.mono (OK' := Any) (fun _ _ => trivial)
  have hu : ∀ l < W.nLinks, 0 < W.L.u l := fun l hl => by rw [(hok.u l hl).1]; exact (hok.u l hl).2
  have key : ∀ v ∈ done, ∃ d, W.V.dest v = some d ∧ W.freeTime (W.V.orig v) d = ((W.freeOf v : ℚ) : WithTop ℚ) ∧
      W.freeDist (W.V.orig v) d = ((W.distOf v : ℚ) : WithTop ℚ) ∧ 0 < W.freeOf v ∧
      W.freeOf v ≤ W.V.travelTime v ∧ 0 < W.distOf v := by
    intro v hv
    obtain ⟨hm, he⟩ := List.mem_filter.1 hv
    obtain ⟨d, e1, e2, e3, e4⟩ := C66_free_partial h hp (of_decide_eq_true he)
    have hod : W.V.orig v ≠ d := fun e => (hg v hm).2 (by rw [e1, e])
    obtain ⟨⟨-, a2⟩, -, a4⟩ := C66_least h.inv (fun l hl => ⟨(hp.2 l hl).2.le, hu l hl⟩) (W.V.orig v) d
    have hpath : ∀ ls, pathEnd W.L (W.V.orig v) ls = d → ls ≠ [] := by
      rintro ls e rfl; exact hod e
    obtain ⟨q, hq⟩ := WithTop.ne_top_iff_exists.mp (ne_top_of_le_ne_top WithTop.coe_ne_top e4)
    have hdo : W.distOf v = q := by
      unfold distOf; rw [e1]; show (W.freeDist (W.V.orig v) d).untopD 0 = q; rw [← hq]; rfl
    refine ⟨d, e1, e2, by rw [hdo, hq], ?_, e3, ?_⟩
    · obtain ⟨ls, -, f2, f3, f4⟩ := a2 _ e2
      rw [← f4]
      exact costSum_pos (hpath ls f2) fun l hl => (f3 l hl).2.2
    · rw [hdo]
      obtain ⟨ls, -, f2, f3, f4⟩ := a4 _ hq.symm
      rw [← f4]
      exact costSum_pos (hpath ls f2) fun l hl => (f3 l hl).2.2
  have hrow : done.mapM (fun v => do
      let r ← W.freeRow v
      pure (ratio (W.V.travelTime v) r.time, ratio (W.V.dist v) r.dist)) =
      .ok (done.map fun v => (some ((W.V.travelTime v / W.freeOf v : ℚ) : WithTop ℚ),
        some ((W.V.dist v / W.distOf v : ℚ) : WithTop ℚ))) := by
    refine mapM_map fun v hv => ?_
    obtain ⟨d, e1, e2, e3, e4, -, e5⟩ := key v hv
    obtain ⟨hm, he⟩ := List.mem_filter.1 hv
    rw [freeRow_ok h' hok.phys.fl hok.phys.dt (hg v hm).1 (of_decide_eq_true he) e1, e2, e3]
    have r1 : ∀ t q : ℚ, 0 < q → ratio t (q : WithTop ℚ) = some ((t / q : ℚ) : WithTop ℚ) := fun t q hq => by
      show (if q = 0 then _ else _) = _
      rw [if_neg hq.ne']
    rw [← r1 _ _ e4, ← r1 _ _ e5]
    rfl
  refine ⟨?_, ?_, fun v hv => ?_⟩
  · unfold groupRatios
    dsimp only
    rw [hrow]
    show (if _ then _ else _) = _
    rw [if_neg hne]
    rw [List.map_map, List.map_map]
    simp only [Function.comp_def]
    rw [
      averageTop_coe _ _ (fun v => W.V.travelTime v / W.freeOf v) (fun v _ => rfl),
      averageTop_coe _ _ (fun v => W.V.dist v / W.distOf v) (fun v _ => rfl)]
    rfl
  · have : mean (done.map fun _ => (1 : ℚ)) = 1 := by
      unfold mean
      have : (done.length : ℚ) ≠ 0 := by
        exact_mod_cast (fun e => hne (List.length_eq_zero_iff.1 e))
      simp [this]
    rw [← this]
    refine mean_le _ _ _ fun v hv => ?_
    obtain ⟨d, -, -, -, e4, e5, -⟩ := key v hv
    rw [le_div_iff₀ e4]; linarith
  · obtain ⟨d, -, -, -, e4, e5, e6⟩ := key v hv
    exact ⟨e4, e5, e6⟩

set_option maxRecDepth 100000 in
/-- The hypotheses of `C63_ratios_partial` are met. The detour ratio need not be at least 1: the movement
carried over a node is missing from the distance travelled. Here all vehicles take the only route and
the ratio is 29/32. -/
theorem C63_detour_false : ∃ W, Reachable (ExactOK fun _ => 20) W ∧ W.Plain ∧
    (∀ v ∈ ([0, 1, 3] : List VehId), v < W.nVeh ∧ W.V.dest v ≠ some (W.V.orig v)) ∧
    (([0, 1, 3] : List VehId).filter fun v => decide (W.V.state v = .ended)) = [0, 1] ∧
    travelled 1 W.trace = [0, 1] ∧
    W.groupRatios [0, 1, 3] = .ok (some ((5 / 4 : ℚ) : WithTop ℚ), some ((29 / 32 : ℚ) : WithTop ℚ)) := by
  have h : obs (runChecked physCheck demoCfg (fun _ => 0) (demo2 8)) (fun W => decide (
      W.nLinks = 2 ∧ W.L.startN 0 = 0 ∧ W.L.startN 1 = 1 ∧ W.L.capIn 0 ≠ 0 ∧ W.L.capIn 1 ≠ 0 ∧
      0 < W.L.length 0 ∧ 0 < W.L.length 1 ∧
      (∀ v ∈ ([0, 1, 3] : List VehId), v < W.nVeh ∧ W.V.dest v ≠ some (W.V.orig v)) ∧
      (([0, 1, 3] : List VehId).filter fun v => decide (W.V.state v = .ended)) = [0, 1] ∧
      travelled 1 W.trace = [0, 1]) &&
      (match W.groupRatios [0, 1, 3] with
        | .ok r => decide (r = (some ((5 / 4 : ℚ) : WithTop ℚ), some ((29 / 32 : ℚ) : WithTop ℚ)))
        | .error _ => false)) = true := by
    decide +kernel
  obtain ⟨W, h1, h2⟩ := obs_ok h
  simp only [Bool.and_eq_true, decide_eq_true_eq] at h2
  obtain ⟨⟨n, s0, s1, c0, c1, p0, p1, f1, f2, f3⟩, hD⟩ := h2
  have two : ∀ l : ℕ, l < W.nLinks → l = 0 ∨ l = 1 := fun l hl => by omega
  refine ⟨W, (runChecked_reachable' (fun W hc hp => physCheck_ok hc hp) h1).mono fun _ h => h.1, ⟨?_, ?_⟩, f1, f2, f3, ?_⟩
  · intro l k hl hk hs _
    rcases two l hl with rfl | rfl <;> rcases two k hk with rfl | rfl
    · rfl
    · rw [s0, s1] at hs; cases hs
    · rw [s0, s1] at hs; cases hs
    · rfl
  · intro l hl
    rcases two l hl with rfl | rfl
    · exact ⟨c0, p0⟩
    · exact ⟨c1, p1⟩
  · split at hD
    · rename_i D hD'
      rw [hD', of_decide_eq_true hD]
    · cases hD

end UX
