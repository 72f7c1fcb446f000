import Verif.Proofs.Tables
import Verif.Props.Counts
import Verif.Props.LinkTimes

/-!
# Tables about links (C57, C58, C59)
-/

namespace UX
open World Relation

/-! ## C57 -/

/-- C57: after at least one step, `link_to_pandas` gives one row per link, in order. The volume is DELTAN
times the number of vehicles that have left the link, the remaining vehicles are DELTAN times those on the
link, and both together are DELTAN times the number of vehicles that ever entered it. -/
theorem C57_rows {W : World} (h : Reachable Any W) (hT : 1 ≤ W.T)
    (hp : ∀ l, l < W.nLinks → W.L.u l ≠ 0 ∧ W.L.length l ≠ 0) :
    ∃ rows, W.linkTable = .ok rows ∧ rows.length = W.nLinks ∧ ∀ l, l < W.nLinks → ∃ r, rows[l]? = some r ∧
      r.link = W.L.name l ∧ r.startN = W.N.name (W.L.startN l) ∧ r.endN = W.N.name (W.L.endN l) ∧
      r.length = W.L.length l ∧
      r.volume = W.dn * (history (leaves l) W.trace).length ∧
      r.remain = W.dn * (W.L.vehs l).length ∧
      r.volume + r.remain = W.dn * (history (enters l) W.trace).length ∧
      r.ttFree = W.L.length l / W.L.u l ∧ r.delay = r.ttAve / r.ttFree := by
  obtain ⟨rows, hr⟩ := mapM_safe (f := W.linkRow) (l := List.range W.nLinks) (fun l hl => by
    rw [List.mem_range] at hl
    obtain ⟨h1, h2⟩ := C02_totals h hl hT
    exact ⟨_, linkRow_eq h1 h2 (hp l hl).1 (hp l hl).2⟩)
  have hf := mapM_ok_forall hr
  have hlen : rows.length = W.nLinks := by rw [← hf.length_eq, List.length_range]
  refine ⟨rows, hr, hlen, fun l hl => ?_⟩
  have hl' : l < rows.length := by rw [hlen]; exact hl
  refine ⟨rows[l], by rw [List.getElem?_eq_getElem hl'], ?_⟩
  have hrow := hf.get (i := l) (by simpa using hl) hl'
  simp only [List.get_eq_getElem, List.getElem_range] at hrow
  obtain ⟨h1, h2⟩ := C02_totals h hl hT
  obtain ⟨a, d, h3, h4, h5⟩ := C02_balance h hl hT
  rw [linkRow_eq h1 h2 (hp l hl).1 (hp l hl).2] at hrow
  have hrow := Except.ok.inj hrow
  rw [h1] at h3; rw [h2] at h4
  cases h3; cases h4
  rw [← hrow]
  refine ⟨rfl, rfl, rfl, rfl, rfl, ?_, ?_, rfl, rfl⟩
  · show ((W.dn * (history (enters l) W.trace).length : ℕ) : ℤ) - (W.dn * (history (leaves l) W.trace).length : ℕ) = _
    rw [h5]; push_cast; ring
  · show ((W.dn * (history (leaves l) W.trace).length : ℕ) : ℤ) +
      (((W.dn * (history (enters l) W.trace).length : ℕ) : ℤ) - (W.dn * (history (leaves l) W.trace).length : ℕ)) = _
    push_cast; ring

/-- C57: the average travel time is -1 as long as no vehicle has left the link, and else the mean of the
positive values of `traveltime_actual`; it is not below the smallest and not above the largest of them. -/
theorem C57_average {W : World} {rows : List LinkRow} (ht : W.linkTable = .ok rows) {l : LinkId} {r : LinkRow}
    (hr : rows[l]? = some r) :
    (r.volume = 0 → r.ttAve = -1) ∧
    (r.volume ≠ 0 → (∃ q ∈ W.L.ttActual l, 0 < q) →
      r.ttAve * ((W.L.ttActual l).filter (fun q => decide (0 < q))).length =
        ((W.L.ttActual l).filter (fun q => decide (0 < q))).sum ∧
      (∀ a, (∀ q ∈ W.L.ttActual l, 0 < q → a ≤ q) → a ≤ r.ttAve) ∧
      ∀ b, (∀ q ∈ W.L.ttActual l, 0 < q → q ≤ b) → r.ttAve ≤ b) := by
  have hf := mapM_ok_forall ht
  obtain ⟨hl', hrl⟩ := List.getElem?_eq_some_iff.1 hr
  have hrow := hf.get (i := l) (by rw [hf.length_eq]; exact hl') hl'
  simp only [List.get_eq_getElem, List.getElem_range, hrl] at hrow
  clear hrl hr hf ht
  unfold linkRow at hrow
  obtain ⟨d, hd, hrow⟩ := bind_ok.1 hrow
  obtain ⟨a, ha, hrow⟩ := bind_ok.1 hrow
  by_cases hu : W.L.u l = 0
  · rw [if_pos hu] at hrow; simp [bind, Except.bind, throw, throwThe, MonadExceptOf.throw] at hrow
  rw [if_neg hu] at hrow
  by_cases hff : W.L.length l / W.L.u l = 0
  · simp only [if_pos hff] at hrow
    simp [bind, Except.bind, throw, throwThe, MonadExceptOf.throw] at hrow
  simp only [if_neg hff] at hrow
  have hrow := Except.ok.inj hrow
  rw [← hrow]
  refine ⟨fun h0 => ?_, fun h0 hex => ?_⟩
  · have h0 : d = 0 := h0
    simp [h0]
  · have h0 : d ≠ 0 := h0
    have hne : (W.L.ttActual l).filter (fun q => decide (0 < q)) ≠ [] := by
      obtain ⟨q, hq, hq0⟩ := hex
      exact List.ne_nil_of_mem (List.mem_filter.2 ⟨hq, decide_eq_true hq0⟩)
    simp only [ne_eq, h0, not_false_eq_true, if_true, hne]
    have hlen : ((((W.L.ttActual l).filter (fun q => decide (0 < q))).length : ℕ) : ℚ) ≠ 0 := by
      have := List.length_pos_of_ne_nil hne
      exact_mod_cast this.ne'
    refine ⟨?_, fun a hA => le_average hne fun q hq => ?_, fun b hB => average_le hne fun q hq => ?_⟩
    · unfold average; field_simp
    · rw [List.mem_filter, decide_eq_true_eq] at hq; exact hA q hq.1 hq.2
    · rw [List.mem_filter, decide_eq_true_eq] at hq; exact hB q hq.1 hq.2

/-- C57: the average travel time of a link that somebody has left is at least the free-flow time minus one
step (exact arithmetic, free-flow speeds `u0` never changed). -/
theorem C57_free_flow {u0 : LinkId → ℚ} {OK : World → Prop} (hO : ∀ W, OK W → ExactOK u0 W) {W : World}
    (h : Reachable OK W) (hf : W.finalized = true) {rows : List LinkRow} (ht : W.linkTable = .ok rows)
    {l : LinkId} (hl : l < W.nLinks) {r : LinkRow} (hr : rows[l]? = some r) (hv : r.volume ≠ 0)
    (hq : ∃ q ∈ W.L.ttActual l, 0 < q) : W.L.length l / u0 l - W.dt ≤ r.ttAve :=
  ((C57_average ht hr).2 hv hq).2.1 _ fun _ hm _ => C28_recorded hO h hf hl hm

set_option maxRecDepth 100000 in
/-- The hypotheses of C57 are met: vehicles have left links 0 and 1, others are still on them. -/
example : ∃ W rows r r', Reachable (fun W => ExactOK (fun _ => 20) W ∧ ∀ v, v < W.nVeh → W.V.mode v = .single) W ∧
    W.finalized = true ∧ 1 ≤ W.T ∧ (∀ l, l < W.nLinks → W.L.u l ≠ 0 ∧ W.L.length l ≠ 0) ∧
    W.linkTable = .ok rows ∧ rows[0]? = some r ∧ rows[1]? = some r' ∧ r.volume = 10 ∧ r.remain = 10 ∧
    r'.volume = 5 ∧ r'.remain = 5 ∧ r.ttAve = 89 / 6 ∧ r'.ttAve = 10 ∧ ∃ q ∈ W.L.ttActual 0, 0 < q := by
  have h : obs (runChecked physCheck demoCfg (fun _ => 0) (demo2 6)) (fun W => decide (
      W.finalized = true ∧ 1 ≤ W.T ∧ (∀ l, l < W.nLinks → W.L.u l ≠ 0 ∧ W.L.length l ≠ 0)) &&
      obs W.linkTable (fun rows => match rows[0]?, rows[1]? with
        | some r, some r' => decide (r.volume = 10 ∧ r.remain = 10 ∧ r'.volume = 5 ∧ r'.remain = 5 ∧
            r.ttAve = 89 / 6 ∧ r'.ttAve = 10 ∧ ∃ q ∈ W.L.ttActual 0, 0 < q)
        | _, _ => false)) = true := by
    decide +kernel
  obtain ⟨W, h1, h2⟩ := obs_ok h
  have hr := runChecked_reachable' (fun W hc hp => physCheck_ok hc hp) h1
  simp only [Bool.and_eq_true] at h2
  obtain ⟨rows, h5, h6⟩ := obs_ok h2.2
  obtain ⟨k1, k2, k3⟩ := of_decide_eq_true h2.1
  cases e : rows[0]? with
  | none => rw [e] at h6; cases h6
  | some r =>
    cases e' : rows[1]? with
    | none => rw [e, e'] at h6; cases h6
    | some r' =>
      rw [e, e'] at h6
      exact ⟨W, rows, r, r', hr, k1, k2, k3, h5, e, e', of_decide_eq_true h6⟩

/-! ## C58 -/

/-- The facts of C54 as one list. -/
theorem ttActual_eq {OK : World → Prop} {W0 W : World} (h : Reachable OK W0) (hf : W0.finalized = false)
    {tm : Option ℚ} (hex : W0.cfg.fl = id) (hdt : W0.cfg.deltat ≠ 0)
    (hp : ReflTransGen ApiStep (W0.finalize tm) W) {l : LinkId} (hl : l < W.nLinks) :
    W.L.ttActual l = (List.range W.tsize).map
      (timeAt (W0.L.length l / W0.L.u l) W0.cfg.deltat (stays l W.trace)) := by
  have hlen : (W.L.ttActual l).length = W.tsize := by
    have hr0 : Reachable Any (W0.finalize tm) := .next (h.mono fun _ _ => trivial) (.finalize hf) trivial
    have hfin : (W0.finalize tm).finalized = true := by
      obtain ⟨ts, tta, fc, fr, la, e⟩ := finalize_frame W0 tm
      rw [e]
    have key : Reachable Any W ∧ LTimes (fun l => W0.L.length l / W0.L.u l) W ∧ W.finalized = true := by
      clear hl
      induction hp with
      | refl => exact ⟨hr0, LTimes.fresh (h.mono fun _ _ => trivial) hf tm hex hdt, hfin⟩
      | tail _ hs ih =>
        obtain ⟨h1, h2, h3⟩ := ih
        obtain ⟨h5, h6⟩ := h2.api h1.inv h3 hs
        exact ⟨.next h1 hs trivial, h5, h6⟩
    exact key.2.1.len l hl
  refine List.ext_getElem? fun i => ?_
  by_cases hi : i < W.tsize
  · rw [C54_actual h hf hex hdt hp hl hi]
    simp [hi]
  · rw [List.getElem?_eq_none (by omega), List.getElem?_eq_none (by simp; omega)]

/-- C58 as far as it holds: the average travel time in `link_to_pandas` is the mean over the TIME STEPS of the
whole simulation period of the travel time that the link shows in that step: that of the vehicle that left the
link last among those that had entered by then, and the free-flow time if there is none. Missing: it is not the
mean over vehicles, see `C58_false`. -/
theorem C58_steps_partial {OK : World → Prop} {W0 W : World} (h : Reachable OK W0) (hf : W0.finalized = false)
    {tm : Option ℚ} (hex : W0.cfg.fl = id) (hdt : W0.cfg.deltat ≠ 0)
    (hp : ReflTransGen ApiStep (W0.finalize tm) W) {rows : List LinkRow} (ht : W.linkTable = .ok rows)
    {l : LinkId} (hl : l < W.nLinks) {r : LinkRow} (hr : rows[l]? = some r) (hv : r.volume ≠ 0)
    (hpos : ∀ i < W.tsize, 0 < timeAt (W0.L.length l / W0.L.u l) W0.cfg.deltat (stays l W.trace) i)
    (h0 : 0 < W.tsize) :
    r.ttAve * W.tsize = ((List.range W.tsize).map
      (timeAt (W0.L.length l / W0.L.u l) W0.cfg.deltat (stays l W.trace))).sum := by
  have he := ttActual_eq h hf hex hdt hp hl
  have hfil : (W.L.ttActual l).filter (fun q => decide (0 < q)) = W.L.ttActual l := by
    rw [List.filter_eq_self, he]
    intro q hq
    obtain ⟨i, hi, rfl⟩ := List.mem_map.1 hq
    exact decide_eq_true (hpos i (List.mem_range.1 hi))
  obtain ⟨h1, -⟩ := (C57_average ht hr).2 hv ⟨_, by
    rw [he]; exact List.mem_map.2 ⟨0, List.mem_range.2 h0, rfl⟩, hpos 0 h0⟩
  rw [hfil, he] at h1
  simpa using h1

set_option maxRecDepth 100000 in
/-- C58 is false of the code: five vehicles have left link 0, in 10, 15, 10, 15 and 15 seconds, which is 13
seconds on average; the table says 59/4 seconds. The hypotheses of `C57_rows`, `C57_free_flow` and
`C58_steps_partial` are met in this world. -/
theorem C58_false : ∃ W0 W rows r, Reachable Any W0 ∧ W0.finalized = false ∧ W0.cfg.fl = id ∧
    W0.cfg.deltat = 5 ∧ ReflTransGen ApiStep (W0.finalize (some 300)) W ∧ 0 < W.nLinks ∧ W.finalized = true ∧
    1 ≤ W.T ∧ W.linkTable = .ok rows ∧ rows[0]? = some r ∧ r.volume = 25 ∧ r.remain = 0 ∧ r.ttFree = 10 ∧
    stays 0 W.trace = [(6, 9), (5, 8), (4, 6), (2, 5), (1, 3)] ∧
    ((stays 0 W.trace).map fun s => ((s.2 : ℚ) - s.1) * 5).sum / (stays 0 W.trace).length = 13 ∧
    r.ttAve = 59 / 4 ∧
    ∀ i < W.tsize, 0 < timeAt (W0.L.length 0 / W0.L.u 0) W0.cfg.deltat (stays 0 W.trace) i := by
  have h : obs (runCmds demoCfg (fun _ => 0) ((demo2 0).dropLast)) (fun W0 => decide (
      W0.finalized = false ∧ W0.cfg.deltat = 5) &&
      obs ((List.replicate 12 Cmd.tick).foldlM Cmd.run (W0.finalize (some 300))) (fun W => decide (
        0 < W.nLinks ∧ W.finalized = true ∧ 1 ≤ W.T) && obs W.linkTable (fun rows => match rows[0]? with
          | none => false
          | some r => decide (r.volume = 25 ∧ r.remain = 0 ∧ r.ttFree = 10 ∧
            stays 0 W.trace = [(6, 9), (5, 8), (4, 6), (2, 5), (1, 3)] ∧
            ((stays 0 W.trace).map fun s => ((s.2 : ℚ) - s.1) * 5).sum / (stays 0 W.trace).length = 13 ∧
            r.ttAve = 59 / 4 ∧
            ∀ i < W.tsize, 0 < timeAt (W0.L.length 0 / W0.L.u 0) W0.cfg.deltat (stays 0 W.trace) i)))) = true := by
    decide +kernel
  obtain ⟨W0, h1, h2⟩ := obs_ok h
  simp only [Bool.and_eq_true] at h2
  obtain ⟨W, h3, h4⟩ := obs_ok h2.2
  simp only [Bool.and_eq_true] at h4
  obtain ⟨rows, h5, h6⟩ := obs_ok h4.2
  have h7 := of_decide_eq_true h2.1
  obtain ⟨k1, k2, k3⟩ := of_decide_eq_true h4.1
  cases hr : rows[0]? with
  | none => rw [hr] at h6; cases h6
  | some r =>
    rw [hr] at h6
    exact ⟨W0, W, rows, r, runCmds_reachable h1, h7.1, by rw [runCmds_cfg h1]; rfl, h7.2,
      foldlM_inv (P := ReflTransGen ApiStep (W0.finalize (some 300)))
        (fun _ _ _ _ hr hc => hr.tail (Cmd.run_api hc)) .refl h3, k1, k2, k3, h5, hr, of_decide_eq_true h6⟩

/-! ## C59 -/

/-- The row that `link_cumulative_to_pandas` should give for link `l` and step `i`, apart from the last
column: time, number of vehicles that have entered and left up to that step, travel time. -/
def cumSpec (W0 W : World) (l : LinkId) (i : ℕ) : String × ℚ × ℕ × ℕ × ℚ :=
  (W.L.name l, i * W.dt, W.dn * countUpTo (enters l) W.trace i, W.dn * countUpTo (leaves l) W.trace i,
    timeAt (W0.L.length l / W0.L.u l) W0.cfg.deltat (stays l W.trace) i)

theorem finalize_cfg (W0 : World) (tm : Option ℚ) : (W0.finalize tm).cfg = W0.cfg := by
  obtain ⟨ts, tta, fc, fr, la, e⟩ := finalize_frame W0 tm
  rw [e]

theorem reach_after {OK : World → Prop} {W0 W : World} (h : Reachable OK W0) (hf : W0.finalized = false)
    {tm : Option ℚ} (hp : ReflTransGen ApiStep (W0.finalize tm) W) : Reachable Any W ∧ W.cfg = W0.cfg := by
  have hr0 : Reachable Any (W0.finalize tm) := .next (h.mono fun _ _ => trivial) (.finalize hf) trivial
  induction hp with
  | refl => exact ⟨hr0, finalize_cfg W0 tm⟩
  | tail _ hs ih => exact ⟨.next ih.1 hs trivial, (hs.cfg ih.1.inv).trans ih.2⟩

/-- C59: at the end of the simulation `link_cumulative_to_pandas` gives, link by link and step by step, the
numbers of vehicles that have entered and left the link up to that step and the travel time shown for that
step; the last column repeats the recorded instantaneous travel times. -/
theorem C59_rows {OK : World → Prop} {W0 W : World} (h : Reachable OK W0) (hf : W0.finalized = false)
    {tm : Option ℚ} (hex : W0.cfg.fl = id) (hdt : W0.cfg.deltat ≠ 0)
    (hp : ReflTransGen ApiStep (W0.finalize tm) W) (hT : W.T = W.tsize) :
    ∃ rows, W.cumTable = .ok rows ∧
      rows.map (fun r => (r.link, r.t, r.arr, r.dep, r.actual)) =
        ((List.range W.nLinks).flatMap fun l => (List.range W.tsize).map fun i => cumSpec W0 W l i) ∧
      rows.map (·.instant) = (List.range W.nLinks).flatMap fun l => (W.L.ttInstant l).reverse := by
  obtain ⟨hr, hcfg⟩ := reach_after h hf hp
  have hid : ∀ q, W.fl q = q := fun q => by unfold World.fl; rw [hcfg, hex]; rfl
  have row : ∀ l, l < W.nLinks → ∀ i, i < W.tsize → W.cumRow l i = .ok
      { link := W.L.name l, t := i * W.dt, arr := W.dn * countUpTo (enters l) W.trace i
        dep := W.dn * countUpTo (leaves l) W.trace i
        actual := timeAt (W0.L.length l / W0.L.u l) W0.cfg.deltat (stays l W.trace) i
        instant := (W.L.ttInstant l).reverse.getD i 0 } := by
    intro l hl i hi
    obtain ⟨a1, a2⟩ := C03_points hr hl
    have htt : i < (W.L.ttInstant l).reverse.length := by
      rw [List.length_reverse, C53_count hr hl, hT]; exact hi
    unfold cumRow
    rw [(at!_ok (a := W.dn * countUpTo (enters l) W.trace i)).2 (by rw [a1]; simp [hT, hi]),
      (at!_ok (a := W.dn * countUpTo (leaves l) W.trace i)).2 (by rw [a2]; simp [hT, hi]),
      at!_ok.2 (C54_actual h hf hex hdt hp hl hi),
      (at!_ok (a := (W.L.ttInstant l).reverse.getD i 0)).2 (by
        simp [List.getD, List.getElem?_eq_getElem htt]), hid]
    rfl
  have hall : W.cumTable = .ok ((((List.range W.nLinks).flatMap fun l => (List.range W.tsize).map fun i => (l, i))).map
      fun p : LinkId × ℕ => ({ link := W.L.name p.1, t := p.2 * W.dt, arr := W.dn * countUpTo (enters p.1) W.trace p.2
                               dep := W.dn * countUpTo (leaves p.1) W.trace p.2
                               actual := timeAt (W0.L.length p.1 / W0.L.u p.1) W0.cfg.deltat (stays p.1 W.trace) p.2
                               instant := (W.L.ttInstant p.1).reverse.getD p.2 0 } : CumRow)) := by
    unfold cumTable
    apply mapM_map
    rintro ⟨l, i⟩ hm
    simp only [List.mem_flatMap, List.mem_range, List.mem_map, Prod.mk.injEq] at hm
    obtain ⟨l', hl, i', hi, rfl, rfl⟩ := hm
    exact row _ hl _ hi
  refine ⟨_, hall, ?_, ?_⟩
  · simp only [List.map_flatMap, List.map_map]
    rfl
  · simp only [List.map_flatMap, List.map_map]
    refine List.flatMap_congr fun l hl => ?_
    rw [List.mem_range] at hl
    have hlen : (W.L.ttInstant l).reverse.length = W.tsize := by
      rw [List.length_reverse, C53_count hr hl, hT]
    refine List.ext_getElem (by simpa using hlen.symm) fun i h1 h2 => ?_
    simp [List.getD, List.getElem?_eq_getElem h2]

/-- C59: before the end of the simulation the table cannot be produced. -/
theorem C59_unfinished {W : World} (h : Reachable Any W) (hT : W.T < W.tsize) (hl : 0 < W.nLinks) :
    W.cumTable = .error .indexError := by
  unfold cumTable
  have hrow : ∀ l i, W.cumRow l i = .error .indexError ∨ ∃ r, W.cumRow l i = .ok r := by
    intro l i
    have hat : ∀ {α : Type} (xs : List α), at! xs i = .error .indexError ∨ ∃ a, at! xs i = .ok a := by
      intro α xs; unfold at!; cases xs[i]? <;> simp
    unfold cumRow
    rcases hat (W.L.cumArr l).reverse with e | ⟨a, e⟩
    · rw [e]; exact .inl rfl
    rcases hat (W.L.cumDep l).reverse with e' | ⟨d, e'⟩
    · rw [e, e']; exact .inl rfl
    rcases hat (W.L.ttActual l) with e2 | ⟨q, e2⟩
    · rw [e, e', e2]; exact .inl rfl
    rcases hat (W.L.ttInstant l).reverse with e3 | ⟨p, e3⟩
    · rw [e, e', e2, e3]; exact .inl rfl
    · rw [e, e', e2, e3]; exact .inr ⟨_, rfl⟩
  refine mapM_error (fun p _ => hrow p.1 p.2) ⟨(0, W.T), ?_, ?_⟩
  · simp only [List.mem_flatMap, List.mem_range, List.mem_map, Prod.mk.injEq]
    exact ⟨0, hl, W.T, hT, rfl, rfl⟩
  · unfold cumRow
    have : at! (W.L.cumArr 0).reverse W.T = .error .indexError := by
      unfold at!
      rw [List.getElem?_eq_none]
      rw [(C03_points h hl).1]; simp
    show (at! (W.L.cumArr 0).reverse W.T >>= _) = _
    rw [this]; rfl

set_option maxRecDepth 100000 in
/-- The hypotheses of C59 are met: a simulation that is over, and one that is not. -/
example : (∃ W0 W rows, Reachable Any W0 ∧ W0.finalized = false ∧ W0.cfg.fl = id ∧ W0.cfg.deltat = 5 ∧
      ReflTransGen ApiStep (W0.finalize (some 300)) W ∧ W.T = W.tsize ∧ W.cumTable = .ok rows ∧
      (rows.map fun r => (r.arr, r.dep, r.actual, r.instant))[6]? = some (25, 15, 15, 16)) ∧
    ∃ W, Reachable Any W ∧ W.T < W.tsize ∧ 0 < W.nLinks := by
  have h : obs (runCmds demoCfg (fun _ => 0) ((demo2 0).dropLast)) (fun W0 => decide (
      W0.finalized = false ∧ W0.cfg.deltat = 5) &&
      (decide ((W0.finalize (some 300)).T < (W0.finalize (some 300)).tsize ∧ 0 < (W0.finalize (some 300)).nLinks) &&
      obs ((List.replicate 60 Cmd.tick).foldlM Cmd.run (W0.finalize (some 300))) (fun W => decide (
        W.T = W.tsize) && obs W.cumTable (fun rows => decide (
          (rows.map fun r => (r.arr, r.dep, r.actual, r.instant))[6]? = some (25, 15, 15, 16)))))) = true := by
    decide +kernel
  obtain ⟨W0, h1, h2⟩ := obs_ok h
  simp only [Bool.and_eq_true] at h2
  obtain ⟨h2, h3, h4⟩ := h2
  obtain ⟨W, h5, h6⟩ := obs_ok h4
  simp only [Bool.and_eq_true] at h6
  obtain ⟨rows, h7, h8⟩ := obs_ok h6.2
  have h9 := of_decide_eq_true h2
  have h10 := of_decide_eq_true h3
  exact ⟨⟨W0, W, rows, runCmds_reachable h1, h9.1, by rw [runCmds_cfg h1]; rfl, h9.2,
    foldlM_inv (P := ReflTransGen ApiStep (W0.finalize (some 300)))
      (fun _ _ _ _ hr hc => hr.tail (Cmd.run_api hc)) .refl h5, of_decide_eq_true h6.1, h7, of_decide_eq_true h8⟩,
    W0.finalize (some 300), .next (runCmds_reachable h1) (.finalize h9.1) trivial, h10⟩

end UX
