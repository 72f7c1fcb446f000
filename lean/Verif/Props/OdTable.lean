import Verif.Proofs.OdTable
import Verif.Proofs.Tables
import Verif.Props.Delay

/-!
# Tables by origin and destination (C67)
-/

namespace UX
open World

theorem between_one (W : World) (k : NodeId × NodeId) :
    ((List.range W.nVeh).filter fun v => decide (W.odOf v = some k)) = W.between [k.1] [k.2] := by
  rw [← between_eq]
  refine List.filter_congr fun v _ => ?_
  rw [Bool.eq_iff_iff, decide_eq_true_eq, Option.any_eq_true]
  constructor
  · intro e; exact ⟨k, e, by simp⟩
  · rintro ⟨j, e, hj⟩
    simp only [List.mem_singleton, Bool.and_eq_true, decide_eq_true_eq] at hj
    rw [e, Prod.ext hj.1 hj.2]

theorem doneBetween_one {W : World} (h : Reachable Any W) (hfl : FlOK W.cfg.fl) (hdt : 0 ≤ W.dt) (k : NodeId × NodeId) :
    ((List.range W.nVeh).filter fun v => decide (W.odDone v = some k)) = W.doneBetween [k.1] [k.2] := by
  rw [← doneBetween_eq h hfl hdt]
  refine List.filter_congr fun v _ => ?_
  rw [Bool.eq_iff_iff, decide_eq_true_eq, Option.any_eq_true]
  constructor
  · intro e; exact ⟨k, e, by simp⟩
  · rintro ⟨j, e, hj⟩
    simp only [List.mem_singleton, Bool.and_eq_true, decide_eq_true_eq] at hj
    rw [e, Prod.ext hj.1 hj.2]

theorem tt_keys_iff {W : World} (h : Reachable Any W) (hfl : FlOK W.cfg.fl) (hdt : 0 ≤ W.dt) (k : NodeId × NodeId) :
    k ∈ W.odStats.tt.keys ↔ W.doneBetween [k.1] [k.2] ≠ [] := by
  rw [(odStats_spec W).ttmem, ← doneBetween_one h hfl hdt, Ne, List.filter_eq_nil_iff]
  push Not
  simp

/-- C67: `od_to_pandas` has exactly one row for each pair of nodes with a trip. It counts all and the
finished trips and gives the mean travel time of the latter. The mean distance is over all vehicles of
the pair if one of them has finished, and 0 otherwise. -/
theorem C67_pairs {W : World} (h : Reachable Any W) (hfl : FlOK W.cfg.fl) (hdt : 0 ≤ W.dt) :
    (W.odRows.map fun r => (r.orig, r.dest)).Nodup ∧
    ∀ r, r ∈ W.odRows ↔ ∃ o d, W.between [o] [d] ≠ [] ∧ r =
      { orig := o, dest := d
        total := W.dn * (W.between [o] [d]).length
        comp := W.dn * (W.doneBetween [o] [d]).length
        ttAve := mean ((W.doneBetween [o] [d]).map W.V.travelTime)
        distAve := if W.doneBetween [o] [d] = [] then 0 else mean ((W.between [o] [d]).map W.V.dist) } := by
  have hS := odStats_spec W
  have htt := tt_keys_iff h hfl hdt
  constructor
  · unfold odRows
    simp only [List.map_map, Function.comp_def, Prod.mk.eta, List.map_id']
    exact hS.nodup
  · intro r
    have hrow : ∀ k, ({ orig := k.1, dest := k.2, total := W.odStats.trips.val k, comp := W.odStats.comp.val k
                        ttAve := if k ∈ W.odStats.tt.keys then average (W.odStats.tt.val k) else 0
                        distAve := if k ∈ W.odStats.tt.keys then average (W.odStats.dist.val k) else 0 } : OdRow) =
        { orig := k.1, dest := k.2
          total := W.dn * (W.between [k.1] [k.2]).length
          comp := W.dn * (W.doneBetween [k.1] [k.2]).length
          ttAve := mean ((W.doneBetween [k.1] [k.2]).map W.V.travelTime)
          distAve := if W.doneBetween [k.1] [k.2] = [] then 0
            else mean ((W.between [k.1] [k.2]).map W.V.dist) } := by
      intro k
      rw [hS.trips, hS.comp, hS.tt, hS.dist, between_one, doneBetween_one h hfl hdt]
      by_cases hk : W.doneBetween [k.1] [k.2] = []
      · have hk' : k ∉ W.odStats.tt.keys := fun hm => (htt k).1 hm hk
        simp only [if_neg hk', if_pos hk, hk, mean]
        simp
      · have hk' := (htt k).2 hk
        simp only [if_pos hk', if_neg hk]
        rfl
    unfold odRows
    simp only [List.mem_map, hrow]
    constructor
    · rintro ⟨k, hk, rfl⟩
      refine ⟨k.1, k.2, ?_, rfl⟩
      obtain ⟨v, hv, e⟩ := (hS.mem k).1 hk
      rw [← between_one]
      exact List.ne_nil_of_mem (a := v) (by simp [List.mem_range.1 hv, e])
    · rintro ⟨o, d, hne, rfl⟩
      refine ⟨(o, d), ?_, rfl⟩
      obtain ⟨v, hv⟩ := List.exists_mem_of_ne_nil _ hne
      rw [show W.between [o] [d] = W.between [(o, d).1] [(o, d).2] from rfl, ← between_one] at hv
      obtain ⟨h1, h2⟩ := List.mem_filter.1 hv
      exact (hS.mem _).2 ⟨v, h1, by simpa using h2⟩

/-- The columns for free flow belong to the same rows. They are 0 if no trip of the pair has finished. -/
theorem C67_free_columns {W : World} (h : Reachable Any W) (hfl : FlOK W.cfg.fl) (hdt : 0 ≤ W.dt) :
    W.odFree = W.odRows.map fun r =>
      { orig := r.orig, dest := r.dest
        time := if W.doneBetween [r.orig] [r.dest] = [] then 0 else W.freeTime r.orig r.dest
        dist := if W.doneBetween [r.orig] [r.dest] = [] then 0 else W.freeDist r.orig r.dest } := by
  unfold odFree odRows
  dsimp only
  rw [List.map_map]
  refine List.map_congr_left fun k _ => ?_
  simp only [Function.comp_apply]
  have := tt_keys_iff h hfl hdt k
  by_cases hk : k ∈ W.odStats.tt.keys
  · simp only [if_pos hk, if_neg (this.1 hk)]
  · have hd : W.doneBetween [k.1] [k.2] = [] := by by_contra hd; exact hk (this.2 hd)
    simp only [if_neg hk, if_pos hd]

theorem divTop_scale (n m : ℕ) (hn : n ≠ 0) (x : WithTop ℚ) :
    (scaleTop n x).map (fun q => q / ((n * m : ℕ) : ℚ)) = divTop x m := by
  cases x with
  | top => rfl
  | coe x =>
    unfold scaleTop divTop
    rw [WithTop.map_coe, WithTop.map_coe, WithTop.map_coe]
    congr 1
    have : (n : ℚ) ≠ 0 := by exact_mod_cast hn
    push_cast
    rcases eq_or_ne (m : ℚ) 0 with hm | hm
    · rw [hm]; simp
    · field_simp

/-- C67 for areas: `areas2areas_to_pandas` has a row for two areas exactly if some vehicle goes from the
first to the second. It counts these vehicles and the finished ones and gives the means over the finished
ones of travel time and free-flow time. Distances are averaged over all of the vehicles, but those without
a finished trip between the same two nodes count as 0: see `C67_false`. -/
theorem C67_areas {W : World} (h : Reachable Any W) (hfl : FlOK W.cfg.fl) (hdt : 0 ≤ W.dt) (hdn : W.dn ≠ 0)
    (O D : List NodeId) :
    (W.areaPair O D = none ↔ W.between O D = []) ∧
    ∀ r, W.areaPair O D = some r →
      r.total = W.dn * (W.between O D).length ∧
      r.comp = W.dn * (W.doneBetween O D).length ∧
      r.time = (if W.doneBetween O D = [] then none else some (mean ((W.doneBetween O D).map W.V.travelTime))) ∧
      r.free = (if W.doneBetween O D = [] then none else some (divTop ((W.doneBetween O D).map
        fun v => W.freeTime (W.V.orig v) ((W.V.dest v).getD 0)).sum (W.doneBetween O D).length)) ∧
      r.dist = (if W.doneBetween O D = [] then none else some (mean ((W.between O D).map
        fun v => if W.PairDone v then W.V.dist v else 0))) ∧
      r.short = divTop ((W.between O D).map fun v =>
        if W.PairDone v then W.freeDist (W.V.orig v) ((W.V.dest v).getD 0) else 0).sum (W.between O D).length := by
  have hS := odStats_spec W
  have hb := between_eq W O D
  have hd := doneBetween_eq h hfl hdt O D
  have hpd : ∀ v ∈ W.between O D, (∃ u ∈ List.range W.nVeh, W.odDone u = W.odOf v) ↔ W.PairDone v := fun v hv =>
    pairDone_iff h hfl hdt (List.mem_filter.1 hv).1
  have hod : ∀ v k, W.odDone v = some k → W.odOf v = some k := fun v k e => odDone_of e
  have hid : ∀ v k, W.odOf v = some k → W.odOf v = some k := fun v k e => e
  unfold areaPair odRows odFree
  dsimp only
  rw [List.zip_map', List.filter_map]
  simp only [List.map_map, Function.comp_def]
  simp only [hS.row_time, hS.row_free W.freeTime, hS.row_short W.freeDist, hS.row_dist]
  rw [List.map_congr_left (fun k _ => hS.trips k), List.map_congr_left (fun k _ => hS.comp k),
    hS.sum_len W.odOf hid, hS.sum_len W.odDone hod, List.sum_map_mul_left, List.sum_map_mul_left,
    hS.sum_keys W.odDone hod, hS.sum_keys W.odOf hid, hS.sum_keys W.odDone hod, hS.sum_keys W.odOf hid, hb, hd]
  have e1 : ((W.between O D).map fun v =>
      if ∃ u ∈ List.range W.nVeh, W.odDone u = W.odOf v then W.V.dist v else 0) =
      (W.between O D).map fun v => if W.PairDone v then W.V.dist v else 0 := by
    refine List.map_congr_left fun v hv => ?_
    simp only [hpd v hv]
  have e2 : ((W.between O D).map fun v => scaleTop W.dn
      (if ∃ u ∈ List.range W.nVeh, W.odDone u = W.odOf v then W.freeDist (W.V.orig v) ((W.V.dest v).getD 0) else 0)) =
      ((W.between O D).map fun v => if W.PairDone v then W.freeDist (W.V.orig v) ((W.V.dest v).getD 0) else 0).map
        (scaleTop W.dn) := by
    rw [List.map_map]
    refine List.map_congr_left fun v hv => ?_
    simp only [hpd v hv, Function.comp_apply]
  have e3 : ((W.doneBetween O D).map fun v => scaleTop W.dn (W.freeTime (W.V.orig v) ((W.V.dest v).getD 0))) =
      ((W.doneBetween O D).map fun v => W.freeTime (W.V.orig v) ((W.V.dest v).getD 0)).map (scaleTop W.dn) := by
    rw [List.map_map]; rfl
  rw [e1, e2, e3, scaleTop_sum, scaleTop_sum, divTop_scale _ _ hdn, divTop_scale _ _ hdn]
  have z : ∀ l : List VehId, W.dn * l.length = 0 ↔ l = [] := fun l => by
    rw [Nat.mul_eq_zero, List.length_eq_zero_iff]; simp [hdn]
  simp only [z]
  have hq : (W.dn : ℚ) ≠ 0 := by exact_mod_cast hdn
  have hm : ∀ (l : List VehId) (g : VehId → ℚ), (W.dn : ℚ) * (l.map g).sum / ((W.dn * l.length : ℕ) : ℚ) = mean (l.map g) := by
    intro l g
    unfold mean
    rw [List.length_map]
    push_cast
    exact mul_div_mul_left _ _ hq
  rw [hm, hm]
  by_cases hn : W.between O D = []
  · rw [if_pos hn]; simp [hn]
  · rw [if_neg hn]
    refine ⟨by simp [hn], fun r hr => ?_⟩
    cases hr
    exact ⟨rfl, rfl, rfl, rfl, rfl, rfl⟩

theorem sum_coe_top {α : Type} (l : List α) (g : α → ℚ) :
    (l.map fun x => ((g x : ℚ) : WithTop ℚ)).sum = (((l.map g).sum : ℚ) : WithTop ℚ) := by
  induction l with
  | nil => rfl
  | cons a l ih => rw [List.map_cons, List.sum_cons, ih, List.map_cons, List.sum_cons, WithTop.coe_add]

theorem mean_le {α : Type} (l : List α) (f g : α → ℚ) (h : ∀ a ∈ l, f a ≤ g a) : mean (l.map f) ≤ mean (l.map g) := by
  unfold mean
  rw [List.length_map, List.length_map]
  refine div_le_div_of_nonneg_right ?_ (by positivity)
  exact List.sum_le_sum h

/-- In a network without parallel or closed links the reported mean free-flow time is finite and at most
the reported mean travel time. -/
theorem C67_bound_partial {u0 : LinkId → ℚ} {W : World} (h : Reachable (ExactOK u0) W) (hp : W.Plain) (hdn : W.dn ≠ 0)
    (O D : List NodeId) {r : AreaPair} (hr : W.areaPair O D = some r) (hne : W.doneBetween O D ≠ []) :
    ∃ q t : ℚ, r.free = some (q : WithTop ℚ) ∧ r.time = some t ∧ 0 ≤ q ∧ q ≤ t := by
  have hok : ExactOK u0 W := h.ok
  have h' := h.mono (OK' := Any) (fun _ _ => trivial)
  obtain ⟨-, -, h3, h4, -⟩ := (C67_areas h' hok.phys.fl hok.phys.dt hdn O D).2 r hr
  rw [if_neg hne] at h3 h4
  have key : ∀ v ∈ W.doneBetween O D, W.freeTime (W.V.orig v) ((W.V.dest v).getD 0) = ((W.freeOf v : ℚ) : WithTop ℚ) ∧
      W.freeOf v ≤ W.V.travelTime v := by
    intro v hv
    have hst : W.V.state v = .ended := by
      have := (List.mem_filter.1 hv).1
      unfold finished at this; simpa using (List.mem_filter.mp this).2
    obtain ⟨d, e1, e2, e3, -⟩ := C66_free_partial h hp hst
    rw [e1]; exact ⟨e2, e3⟩
  have hpos : ∀ v ∈ W.doneBetween O D, 0 ≤ W.freeOf v := by
    intro v hv
    have hn : 0 ≤ W.freeTime (W.V.orig v) ((W.V.dest v).getD 0) := by
      unfold freeTime
      refine floyd_nonneg (fun i j => ?_) _ _ _
      exact freeAdj_nonneg (fun l hl => div_nonneg (hp.2 l hl).2.le
        (by rw [(hok.u l hl).1]; exact (hok.u l hl).2.le)) i j
    rw [(key v hv).1] at hn
    exact_mod_cast hn
  refine ⟨mean ((W.doneBetween O D).map W.freeOf), _, ?_, h3, ?_, mean_le _ _ _ fun v hv => (key v hv).2⟩
  · rw [h4, List.map_congr_left (fun v hv => (key v hv).1), sum_coe_top]
    unfold divTop mean
    rw [WithTop.map_coe, List.length_map]
  · unfold mean
    exact div_nonneg (List.sum_nonneg (by simpa using hpos)) (by positivity)

/-- C67: with valid nodes, non-zero speeds and enough names the table lists the pairs of areas with
trips in the order of the areas. -/
theorem C67_table (W : World) (areas : List (List Ref)) (as : List (List NodeId)) (ns : List String)
    (hu : ∀ l < W.nLinks, W.L.u l ≠ 0) (has : areas.mapM (fun a => a.mapM W.getNode) = .ok as)
    (hn : as.length ≤ ns.length) :
    W.areas2areas areas (some ns) = .ok ((as.zipIdx.product as.zipIdx).filterMap fun p =>
      (W.areaPair p.1.1 p.2.1).map fun r => (ns.getD p.1.2 "", ns.getD p.2.2 "", r)) := by
  have hz : (List.range W.nLinks).any (fun l => decide (W.L.u l = 0)) = false := by
    rw [List.any_eq_false]
    intro l hl'
    simpa using hu l (List.mem_range.mp hl')
  have hname : ∀ i < as.length, nameAt ns i = .ok (ns.getD i "") := by
    intro i hi
    unfold nameAt
    rw [List.getElem?_eq_getElem (lt_of_lt_of_le hi hn)]
    simp [List.getD, List.getElem?_eq_getElem (lt_of_lt_of_le hi hn)]
  unfold areas2areas
  rw [hz, has]
  simp only [Bool.false_eq_true, if_false]
  show W.areaRows as ns = _
  unfold areaRows
  rw [mapM_map (g := fun p => (W.areaPair p.1.1 p.2.1).map fun r => (ns.getD p.1.2 "", ns.getD p.2.2 "", r))]
  · show Except.ok _ = _
    rw [List.filterMap_map]; rfl
  · intro p hp
    obtain ⟨h1, h2⟩ := List.mem_product.1 hp
    have i1 := List.snd_lt_of_mem_zipIdx h1
    have i2 := List.snd_lt_of_mem_zipIdx h2
    rw [hname _ (by omega), hname _ (by omega)]
    rfl

/-- Without names, areas are named by their number and first node. -/
theorem C67_names (W : World) (areas : List (List Ref)) (as : List (List NodeId))
    (has : areas.mapM (fun a => a.mapM W.getNode) = .ok as) (hne : ∀ a ∈ as, a ≠ []) :
    W.areas2areas areas none = W.areas2areas areas
      (some (as.zipIdx.map fun a => s!"area {a.2} including {W.N.name (a.1.headD 0)}")) := by
  unfold areas2areas
  rw [has]
  have : as.zipIdx.mapM W.areaName = .ok (as.zipIdx.map fun a => s!"area {a.2} including {W.N.name (a.1.headD 0)}") := by
    refine mapM_map fun a ha => ?_
    have hm : a.1 ∈ as := List.fst_mem_of_mem_zipIdx ha
    unfold areaName
    cases h : a.1 with
    | nil => exact absurd h (hne _ hm)
    | cons n r => simp
  split
  · rfl
  · show (as.zipIdx.mapM W.areaName >>= fun ns => W.areaRows as ns) = _
    rw [this]
    rfl

/-! ## Witnesses -/

set_option maxRecDepth 100000 in
/-- The hypotheses are met: six vehicles between two areas of which three have finished. -/
example : ∃ W, Reachable (ExactOK fun _ => 20) W ∧ W.Plain ∧ W.dn ≠ 0 ∧ (W.between [0] [1, 2]).length = 6 ∧
    W.doneBetween [0] [1, 2] = [0, 1, 2] ∧ W.areaPair [2] [0] = none ∧
    (∀ l < W.nLinks, W.L.u l ≠ 0) ∧
    W.areaPair [0] [1, 2] = some { total := 30, comp := 15, time := some (70 / 3), free := some ((20 : ℚ) : WithTop ℚ), dist := some (1475 / 6), short := ((400 : ℚ) : WithTop ℚ) } := by
  have h : obs (runChecked physCheck demoCfg (fun _ => 0) (demo2 8)) (fun W => decide (
      W.nLinks = 2 ∧ W.L.startN 0 = 0 ∧ W.L.startN 1 = 1 ∧ W.L.capIn 0 ≠ 0 ∧ W.L.capIn 1 ≠ 0 ∧
      0 < W.L.length 0 ∧ 0 < W.L.length 1 ∧ W.dn ≠ 0 ∧ (W.between [0] [1, 2]).length = 6 ∧
      W.doneBetween [0] [1, 2] = [0, 1, 2] ∧ W.areaPair [2] [0] = none ∧ (∀ l < W.nLinks, W.L.u l ≠ 0) ∧
      W.areaPair [0] [1, 2] = some { total := 30, comp := 15, time := some (70 / 3), free := some ((20 : ℚ) : WithTop ℚ), dist := some (1475 / 6), short := ((400 : ℚ) : WithTop ℚ) })) = true := by
    decide +kernel
  obtain ⟨W, h1, h2⟩ := obs_ok h
  simp only [decide_eq_true_eq] at h2
  obtain ⟨n, s0, s1, c0, c1, p0, p1, hdn, f⟩ := h2
  have two : ∀ l : ℕ, l < W.nLinks → l = 0 ∨ l = 1 := fun l hl => by omega
  refine ⟨W, (runChecked_reachable' (fun W hc hp => physCheck_ok hc hp) h1).mono fun _ h => h.1, ⟨?_, ?_⟩, hdn, f⟩
  · intro l k hl hk hs _
    rcases two l hl with rfl | rfl <;> rcases two k hk with rfl | rfl
    · rfl
    · rw [s0, s1] at hs; cases hs
    · rw [s0, s1] at hs; cases hs
    · rfl
  · intro l hl
    rcases two l hl with rfl | rfl
    · exact ⟨c0, p0⟩
    · exact ⟨c1, p1⟩

set_option maxRecDepth 100000 in
/-- C67 is false of the code for distances: vehicles without a finished trip between the same two nodes
count as 0, in the distance travelled (100 instead of 350) and in the shortest distance (100 instead of
450). Without names, an empty area raises an error. -/
theorem C67_false : ∃ W, Reachable Any W ∧ W.cfg.fl = id ∧ W.dn ≠ 0 ∧ W.between [0] [1, 2] = [0, 1] ∧
    mean ((W.between [0] [1, 2]).map W.V.dist) = 350 ∧
    W.freeDist 0 1 = ((200 : ℚ) : WithTop ℚ) ∧ W.freeDist 0 2 = ((700 : ℚ) : WithTop ℚ) ∧
    W.areaPair [0] [1, 2] = some { total := 10, comp := 5, time := some 10, free := some ((10 : ℚ) : WithTop ℚ), dist := some 100, short := ((100 : ℚ) : WithTop ℚ) } ∧
    W.areas2areas [[.obj 0], []] none = .error .indexError := by
  have hd : obs (runCmds demoCfg (fun _ => 0) (statsDemo 8)) (fun W => decide (W.dn ≠ 0 ∧
      W.between [0] [1, 2] = [0, 1] ∧ mean ((W.between [0] [1, 2]).map W.V.dist) = 350 ∧
      W.freeDist 0 1 = ((200 : ℚ) : WithTop ℚ) ∧ W.freeDist 0 2 = ((700 : ℚ) : WithTop ℚ) ∧
      W.areaPair [0] [1, 2] = some { total := 10, comp := 5, time := some 10, free := some ((10 : ℚ) : WithTop ℚ), dist := some 100, short := ((100 : ℚ) : WithTop ℚ) }) &&
      (match W.areas2areas [[.obj 0], []] none with
        | .error .indexError => true
        | _ => false)) = true := by
    decide +kernel
  obtain ⟨W, hW, hp⟩ := obs_ok hd
  simp only [Bool.and_eq_true, decide_eq_true_eq] at hp
  obtain ⟨⟨a, b, c, d, e, f⟩, g⟩ := hp
  refine ⟨W, runCmds_reachable hW, by rw [runCmds_cfg hW]; rfl, a, b, c, d, e, f, ?_⟩
  split at g
  · rename_i hg; exact hg
  · cases g

end UX
