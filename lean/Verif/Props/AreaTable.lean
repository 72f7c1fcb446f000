import Verif.Props.Tables
import Verif.Props.Structure
import Verif.Proofs.Entered
import Mathlib.Data.List.Dedup
import Mathlib.Data.List.Perm.Basic

/-!
# Areas (C60)
-/

namespace UX
open World

/-- A link belongs to an area if both of its ends do, or with `border` at least one. -/
def InArea (W : World) (area : List NodeId) (border : Bool) (l : LinkId) : Prop :=
  if border then W.L.startN l ∈ area ∨ W.L.endN l ∈ area else W.L.startN l ∈ area ∧ W.L.endN l ∈ area

instance (W : World) (area : List NodeId) (border : Bool) : DecidablePred (InArea W area border) := fun l => by
  unfold InArea; infer_instance

/-- The links of an area. -/
def linksOf (W : World) (area : List NodeId) (border : Bool) : List LinkId :=
  (List.range W.nLinks).filter (InArea W area border)

/-- The vehicles that have entered a link of the area. -/
def visitors (W : World) (area : List NodeId) (border : Bool) : List VehId :=
  (List.range W.nVeh).filter fun v => decide (∃ l ∈ linksOf W area border, v ∈ history (enters l) W.trace)

/-- No link has one of the labels that `vehicles_to_pandas` writes into the link column. -/
def NoLabels (W : World) : Prop :=
  ∀ l, l < W.nLinks → W.L.name l ≠ "waiting_at_origin_node" ∧ W.L.name l ≠ "trip_aborted" ∧
    W.L.name l ≠ "trip_end"

instance (W : World) : Decidable (NoLabels W) := by unfold NoLabels; infer_instance

deriving instance Inhabited for LinkRow

theorem linkTable_map {W : World} {rows : List LinkRow} (h : W.linkTable = .ok rows) :
    ∃ g : LinkId → LinkRow, rows = (List.range W.nLinks).map g ∧ ∀ l, l < W.nLinks → rows[l]? = some (g l) := by
  have hf := mapM_ok_forall h
  have hlen : rows.length = W.nLinks := by rw [← hf.length_eq, List.length_range]
  refine ⟨fun l => rows.getD l default, ?_, fun l hl => ?_⟩
  · refine List.ext_getElem (by simp [hlen]) fun i h1 h2 => ?_
    simp [List.getD, List.getElem?_eq_getElem h1]
  · have : l < rows.length := by rw [hlen]; exact hl
    simp [List.getD, List.getElem?_eq_getElem this]

theorem contains_name {W : World} (h : Reachable Any W) {area : List NodeId} (ha : ∀ n ∈ area, n < W.nNodes)
    {n : NodeId} (hn : n < W.nNodes) : (area.map W.N.name).contains (W.N.name n) = decide (n ∈ area) := by
  rw [Bool.eq_iff_iff]
  simp only [List.contains_iff_mem, List.mem_map, decide_eq_true_eq]
  constructor
  · rintro ⟨m, hm, e⟩
    rw [← (C25_distinct h).1 m n (ha m hm) hn e]; exact hm
  · exact fun hm => ⟨n, hm, rfl⟩

theorem areaLinks_map {W : World} (h : Reachable Any W) {area : List NodeId} (ha : ∀ n ∈ area, n < W.nNodes)
    (border : Bool) {g : LinkId → LinkRow} (hg : ∀ l, l < W.nLinks → (g l).startN = W.N.name (W.L.startN l) ∧
      (g l).endN = W.N.name (W.L.endN l)) :
    areaLinks (area.map W.N.name) border ((List.range W.nLinks).map g) = (linksOf W area border).map g := by
  unfold areaLinks linksOf
  rw [List.filter_map]
  congr 1
  refine List.filter_congr fun l hl => ?_
  rw [List.mem_range] at hl
  obtain ⟨e1, e2⟩ := hg l hl
  have hs := h.inv.s.ends_lt l hl
  simp only [Function.comp, e1, e2, contains_name h ha hs.1, contains_name h ha hs.2]
  unfold InArea
  cases border <;> simp

/-- The vehicles that `area_to_pandas` finds on the links of the area. -/
theorem visitors_found {W : World} (h : Reachable Any W) (hl : LogEnt W)
    (hlab : NoLabels W) (area : List NodeId) (border : Bool) :
    ((W.vehTable.filter fun r => ((linksOf W area border).map W.L.name).contains r.link).map
      (·.name)).dedup.length = (visitors W area border).length := by
  have hd := C25_distinct h
  have hnd : ((visitors W area border).map W.V.name).Nodup := by
    refine List.Nodup.map_on ?_ (List.nodup_range.filter _)
    intro i hi j hj e
    exact hd.2.2 i j (List.mem_range.1 (List.mem_of_mem_filter hi)) (List.mem_range.1 (List.mem_of_mem_filter hj)) e
  rw [← List.length_map (as := visitors W area border) W.V.name]
  refine ((List.perm_ext_iff_of_nodup (List.nodup_dedup _) hnd).2 fun s => ?_).length_eq
  rw [List.mem_dedup]
  simp only [List.mem_map, List.mem_filter, visitors, vehTable, List.mem_flatMap, List.mem_range, vehRows,
    decide_eq_true_eq, List.contains_iff_mem]
  constructor
  · rintro ⟨row, ⟨⟨v, hv, r, ⟨hr, hst⟩, rfl⟩, l, hl1, hl2⟩, rfl⟩
    refine ⟨v, ⟨hv, l, hl1, ?_⟩, rfl⟩
    have hll : l < W.nLinks := List.mem_range.1 (List.mem_of_mem_filter hl1)
    refine (hl.log v l).1 ⟨r, List.mem_reverse.1 hr, ?_⟩
    have hl2 : W.L.name l = W.linkColumn r := hl2
    unfold linkColumn at hl2
    cases e : r.link with
    | none =>
      rw [e] at hl2
      obtain ⟨a, b, c⟩ := hlab l hll
      dsimp only at hl2
      split at hl2
      · exact absurd hl2 a
      · exact absurd hl2 b
      · exact absurd hl2 c
    | some k =>
      rw [e] at hl2
      have hk : k < W.nLinks := hl.lt v k ((hl.log v k).1 ⟨r, List.mem_reverse.1 hr, e⟩)
      rw [hd.2.1 l k hll hk hl2]
  · rintro ⟨v, ⟨hv, l, hl1, hl2⟩, rfl⟩
    obtain ⟨r, hr, e⟩ := (hl.log v l).2 hl2
    have hst : r.state = .run := RowRun.reach h v r hr (by rw [e]; simp)
    refine ⟨_, ⟨⟨v, hv, r, ⟨List.mem_reverse.2 hr, by rw [hst]; simp⟩, rfl⟩, l, hl1, ?_⟩, rfl⟩
    show W.L.name l = W.linkColumn r
    unfold linkColumn; rw [e]

/-- The row of an area from the rows `g` of the link table. -/
def areaSpec (W : World) (g : LinkId → LinkRow) (a : List NodeId) (border : Bool) : AreaRow :=
  let ls := linksOf W a border
  let vol := W.dn * (visitors W a border).length
  let rem : ℤ := W.dn * (ls.map fun l => (W.L.vehs l).length).sum
  let n := fun l => (W.dn : ℚ) * (history (leaves l) W.trace).length - W.dn * (W.L.vehs l).length
  let tt := (ls.map fun l => (g l).ttAve * n l).sum
  let ff := (ls.map fun l => W.L.length l / W.L.u l * n l).sum
  let len := (ls.map W.L.length).sum
  if 0 < vol then
    { nLinks := ls.length, volume := vol, remain := rem, totalTime := tt
      delay := if ff = 0 then none else some (max (tt / ff - 1) 0)
      speed := if 0 < tt then some ((ls.map fun l => W.L.length l * n l).sum / tt) else none
      density := if 0 < len then some (vol / len) else none }
  else { nLinks := ls.length, volume := vol, remain := rem, totalTime := 0, delay := none, speed := none
         density := none }

theorem areaTable_rows {OK : World → Prop} (hO : ∀ W, OK W → W.cfg.logInterval = 1) {W : World}
    (h : Reachable OK W) (hT : 1 ≤ W.T) (hp : ∀ l, l < W.nLinks → W.L.u l ≠ 0 ∧ W.L.length l ≠ 0)
    (hlab : NoLabels W) (areas : List (List NodeId)) (ha : ∀ a ∈ areas, ∀ n ∈ a, n < W.nNodes) (border : Bool) :
    ∃ (lrows : List LinkRow) (g : LinkId → LinkRow), W.linkTable = .ok lrows ∧
      (∀ l, l < W.nLinks → lrows[l]? = some (g l)) ∧
      W.areaTable (areas.map (·.map Ref.obj)) border = .ok (areas.map fun a => areaSpec W g a border) := by
  have hA : Reachable Any W := h.mono fun _ _ => trivial
  obtain ⟨rows, ht, hlen, hrow⟩ := C57_rows hA hT hp
  obtain ⟨g, hg, hgr⟩ := linkTable_map ht
  refine ⟨rows, g, ht, hgr, ?_⟩
  have hrow' : ∀ l, l < W.nLinks → (g l).link = W.L.name l ∧ (g l).startN = W.N.name (W.L.startN l) ∧
      (g l).endN = W.N.name (W.L.endN l) ∧ (g l).length = W.L.length l ∧
      (g l).remain = W.dn * (W.L.vehs l).length ∧ (g l).ttFree = W.L.length l / W.L.u l ∧
      (g l).volume = W.dn * (history (leaves l) W.trace).length := by
    intro l hl
    obtain ⟨r, e, h1, h2, h3, h4, h5, h6, -, h7, -⟩ := hrow l hl
    rw [hgr l hl] at e
    obtain rfl := Option.some.inj e
    exact ⟨h1, h2, h3, h4, h6, h7, h5⟩
  have hsets : (areas.map (·.map Ref.obj)).mapM (fun a => a.mapM fun n => do
      let n ← W.getNode n
      pure (W.N.name n)) = .ok (areas.map (·.map W.N.name)) := by
    have := mapM_map (f := fun a : List NodeId => (a.map Ref.obj).mapM fun n => do
      let n ← W.getNode n
      pure (W.N.name n)) (g := fun a => a.map W.N.name) (l := areas) (fun a hm => by
        rw [List.mapM_map]
        refine mapM_map fun n hn => ?_
        simp only [Function.comp, getNode, if_pos (ha a hm n hn)]
        rfl)
    rw [List.mapM_map]; exact this
  have hall : W.areaTable (areas.map (·.map Ref.obj)) border =
      .ok ((areas.map (·.map W.N.name)).map fun a => W.areaRow rows W.vehTable a border) := by
    unfold areaTable
    rw [ht]
    show (_ >>= _) = _
    rw [hsets]; rfl
  rw [hall, List.map_map]
  congr 1
  refine List.map_congr_left fun a hm => ?_
  show W.areaRow rows W.vehTable (a.map W.N.name) border = areaSpec W g a border
  have hL : areaLinks (a.map W.N.name) border rows = (linksOf W a border).map g := by
    rw [hg]
    exact areaLinks_map hA (ha a hm) border fun l hl => ⟨(hrow' l hl).2.1, (hrow' l hl).2.2.1⟩
  have hlt : ∀ l ∈ linksOf W a border, l < W.nLinks := fun l hl => List.mem_range.1 (List.mem_of_mem_filter hl)
  have hnames : (((linksOf W a border).map g).map (·.link)) = (linksOf W a border).map W.L.name := by
    rw [List.map_map]
    exact List.map_congr_left fun l hl => (hrow' l (hlt l hl)).1
  have hnd : ((linksOf W a border).map W.L.name).dedup = (linksOf W a border).map W.L.name := by
    refine List.Nodup.dedup (List.Nodup.map_on ?_ (List.nodup_range.filter _))
    intro i hi j hj e
    exact (C25_distinct hA).2.1 i j (hlt i hi) (hlt j hj) e
  have hlen' : (((linksOf W a border).map g).map (·.length)) = (linksOf W a border).map W.L.length := by
    rw [List.map_map]
    exact List.map_congr_left fun l hl => (hrow' l (hlt l hl)).2.2.2.1
  have hleft : ∀ l ∈ linksOf W a border, ((g l).volume : ℚ) - ((g l).remain : ℚ) =
      (W.dn : ℚ) * (history (leaves l) W.trace).length - W.dn * (W.L.vehs l).length := by
    intro l hl
    rw [(hrow' l (hlt l hl)).2.2.2.2.1, (hrow' l (hlt l hl)).2.2.2.2.2.2]
    push_cast; rfl
  have hrem : (((linksOf W a border).map g).map (·.remain)).sum =
      W.dn * ((linksOf W a border).map fun l => (W.L.vehs l).length).sum := by
    have : (((linksOf W a border).map g).map (·.remain)) =
        (linksOf W a border).map fun l => (W.dn : ℤ) * (W.L.vehs l).length := by
      rw [List.map_map]
      exact List.map_congr_left fun l hl => (hrow' l (hlt l hl)).2.2.2.2.1
    rw [this, List.sum_map_mul_left]
    congr 1
    generalize linksOf W a border = ls
    induction ls with
    | nil => rfl
    | cons l ls ih => simp only [List.map_cons, List.sum_cons, ih]; push_cast; rfl
  have hvol : ((W.vehTable.filter fun r => ((linksOf W a border).map W.L.name).contains r.link).map
      (·.name)).dedup.length * W.dn = W.dn * (visitors W a border).length := by
    rw [visitors_found hA (LogEnt.reach hO h) hlab, mul_comm]
  have s1 : (((linksOf W a border).map g).map fun r : LinkRow => r.ttAve * ((r.volume : ℚ) - (r.remain : ℚ))) =
      (linksOf W a border).map fun l => (g l).ttAve *
        ((W.dn : ℚ) * (history (leaves l) W.trace).length - W.dn * (W.L.vehs l).length) := by
    rw [List.map_map]
    exact List.map_congr_left fun l hl => by simp only [Function.comp, hleft l hl]
  have s2 : (((linksOf W a border).map g).map fun r : LinkRow => r.ttFree * ((r.volume : ℚ) - (r.remain : ℚ))) =
      (linksOf W a border).map fun l => W.L.length l / W.L.u l *
        ((W.dn : ℚ) * (history (leaves l) W.trace).length - W.dn * (W.L.vehs l).length) := by
    rw [List.map_map]
    exact List.map_congr_left fun l hl => by
      simp only [Function.comp, hleft l hl, (hrow' l (hlt l hl)).2.2.2.2.2.1]
  have s3 : (((linksOf W a border).map g).map fun r : LinkRow => r.length * ((r.volume : ℚ) - (r.remain : ℚ))) =
      (linksOf W a border).map fun l => W.L.length l *
        ((W.dn : ℚ) * (history (leaves l) W.trace).length - W.dn * (W.L.vehs l).length) := by
    rw [List.map_map]
    exact List.map_congr_left fun l hl => by
      simp only [Function.comp, hleft l hl, (hrow' l (hlt l hl)).2.2.2.1]
  unfold areaRow areaSpec
  simp only [hL, hnames, hnd, hvol, hrem, hlen', s1, s2, s3, List.length_map]

/-- C60: `area_to_pandas` gives one row per area, in order, with the number of links of the area, DELTAN times
the number of different vehicles that have entered one of them, DELTAN times the number of vehicles on them
now, and the vehicles per length. -/
theorem C60_counts {OK : World → Prop} (hO : ∀ W, OK W → W.cfg.logInterval = 1) {W : World}
    (h : Reachable OK W) (hT : 1 ≤ W.T) (hp : ∀ l, l < W.nLinks → W.L.u l ≠ 0 ∧ W.L.length l ≠ 0)
    (hlab : NoLabels W) (areas : List (List NodeId)) (ha : ∀ a ∈ areas, ∀ n ∈ a, n < W.nNodes) (border : Bool) :
    ∃ rows : List AreaRow, W.areaTable (areas.map (·.map Ref.obj)) border = .ok rows ∧
      rows.length = areas.length ∧
      ∀ (i : ℕ) (a : List NodeId), areas[i]? = some a → ∃ r : AreaRow, rows[i]? = some r ∧
        r.nLinks = (linksOf W a border).length ∧
        r.volume = W.dn * (visitors W a border).length ∧
        r.remain = W.dn * ((linksOf W a border).map fun l => (W.L.vehs l).length).sum ∧
        (0 < r.volume → 0 < ((linksOf W a border).map W.L.length).sum →
          r.density = some (r.volume / ((linksOf W a border).map W.L.length).sum)) := by
  obtain ⟨lrows, g, -, -, hr⟩ := areaTable_rows hO h hT hp hlab areas ha border
  refine ⟨_, hr, by simp, fun i a hi => ⟨areaSpec W g a border, by simp [hi], ?_⟩⟩
  unfold areaSpec
  dsimp only
  by_cases hv : 0 < W.dn * (visitors W a border).length
  · rw [if_pos hv]
    refine ⟨rfl, rfl, rfl, fun _ hpos => ?_⟩
    simp only [if_pos hpos]
  · rw [if_neg hv]
    exact ⟨rfl, rfl, rfl, fun h => absurd h hv⟩

/-- C60 as far as it holds: if nobody is on the links of an area, the total travel time is the sum, over its
links, of the average travel time times DELTAN times the number of vehicles that have left the link. It is
not negative, nor is the average speed. -/
theorem C60_time_partial {OK : World → Prop} (hO : ∀ W, OK W → W.cfg.logInterval = 1) {W : World}
    (h : Reachable OK W) (hT : 1 ≤ W.T) (hp : ∀ l, l < W.nLinks → W.L.u l ≠ 0 ∧ 0 < W.L.length l)
    (hlab : NoLabels W) {areas : List (List NodeId)} (ha : ∀ a ∈ areas, ∀ n ∈ a, n < W.nNodes) {border : Bool}
    {rows : List AreaRow} (hr : W.areaTable (areas.map (·.map Ref.obj)) border = .ok rows)
    {i : ℕ} {a : List NodeId} {r : AreaRow} (hi : areas[i]? = some a) (hri : rows[i]? = some r)
    (hempty : ∀ l ∈ linksOf W a border, W.L.vehs l = [])
    (hpos : ∀ l ∈ linksOf W a border, ∃ q ∈ W.L.ttActual l, 0 < q) :
    ∃ lrows : List LinkRow, W.linkTable = .ok lrows ∧
      r.totalTime = ((linksOf W a border).map fun l => (lrows.getD l default).ttAve *
        (W.dn * (history (leaves l) W.trace).length)).sum ∧
      0 ≤ r.totalTime ∧ ∀ s, r.speed = some s → 0 ≤ s := by
  have hA : Reachable Any W := h.mono fun _ _ => trivial
  have hp' : ∀ l, l < W.nLinks → W.L.u l ≠ 0 ∧ W.L.length l ≠ 0 := fun l hl => ⟨(hp l hl).1, (hp l hl).2.ne'⟩
  obtain ⟨lrows, g, ht, hg, hr'⟩ := areaTable_rows hO h hT hp' hlab areas ha border
  rw [hr] at hr'
  obtain rfl := Except.ok.inj hr'
  have e : r = areaSpec W g a border := by simpa [hi, eq_comm] using hri
  subst e
  refine ⟨lrows, ht, ?_⟩
  have hlt : ∀ l ∈ linksOf W a border, l < W.nLinks := fun l hl => List.mem_range.1 (List.mem_of_mem_filter hl)
  have hE := LogEnt.reach hO h
  have hn : ∀ l ∈ linksOf W a border, (W.dn : ℚ) * (history (leaves l) W.trace).length -
      W.dn * (W.L.vehs l).length = W.dn * (history (leaves l) W.trace).length := by
    intro l hl; rw [hempty l hl]; simp
  have htt : ((linksOf W a border).map fun l => (g l).ttAve * ((W.dn : ℚ) * (history (leaves l) W.trace).length -
      W.dn * (W.L.vehs l).length)) = (linksOf W a border).map fun l => (lrows.getD l default).ttAve *
        (W.dn * (history (leaves l) W.trace).length) := by
    refine List.map_congr_left fun l hl => ?_
    rw [hn l hl]; simp [List.getD, hg l (hlt l hl)]
  have hvolume : ∀ l, l < W.nLinks → (g l).volume = W.dn * (history (leaves l) W.trace).length := by
    obtain ⟨rows, ht', -, hrow⟩ := C57_rows hA hT hp'
    rw [ht] at ht'
    obtain rfl := Except.ok.inj ht'
    intro l hl
    obtain ⟨r, e, -, -, -, -, h5, -⟩ := hrow l hl
    rw [hg l hl] at e
    obtain rfl := Option.some.inj e
    exact h5
  have hnn : 0 ≤ ((linksOf W a border).map fun l => (lrows.getD l default).ttAve *
      ((W.dn : ℚ) * (history (leaves l) W.trace).length)).sum := by
    refine List.sum_nonneg fun q hq => ?_
    obtain ⟨l, hl, rfl⟩ := List.mem_map.1 hq
    have hl' := hlt l hl
    simp only [List.getD, hg l hl', Option.getD_some]
    by_cases hv : (g l).volume = 0
    · rw [hvolume l hl'] at hv
      have : (W.dn : ℚ) * (history (leaves l) W.trace).length = 0 := by exact_mod_cast hv
      rw [this]; simp
    · have := ((C57_average ht (hg l hl')).2 hv (hpos l hl)).2.1 0 (fun q _ hq => hq.le)
      positivity
  unfold areaSpec
  dsimp only
  rw [htt]
  by_cases hv : 0 < W.dn * (visitors W a border).length
  · rw [if_pos hv]
    refine ⟨rfl, hnn, fun s hs => ?_⟩
    dsimp only at hs
    split at hs
    · obtain rfl := Option.some.inj hs
      refine div_nonneg (List.sum_nonneg fun q hq => ?_) hnn
      obtain ⟨l, hl, rfl⟩ := List.mem_map.1 hq
      rw [hn l hl]
      have := (hp l (hlt l hl)).2
      positivity
    · cases hs
  · rw [if_neg hv]
    have hz : ((linksOf W a border).map fun l => (lrows.getD l default).ttAve *
        ((W.dn : ℚ) * (history (leaves l) W.trace).length)).sum = 0 := by
      refine List.sum_eq_zero fun q hq => ?_
      obtain ⟨l, hl, rfl⟩ := List.mem_map.1 hq
      rcases Nat.eq_zero_or_pos W.dn with hd | hd
      · rw [hd]; simp
      · have hvis : visitors W a border = [] := by
          rw [← List.length_eq_zero_iff]
          by_contra hne
          exact hv (Nat.mul_pos hd (Nat.pos_of_ne_zero hne))
        have : history (leaves l) W.trace = [] := by
          rw [List.eq_nil_iff_forall_not_mem]
          intro v hvl
          have hent : HasEntered v l W.trace := by
            unfold HasEntered
            rw [(TInv.reach hA).fifo l]
            exact List.mem_append_left _ hvl
          have hvn : v < W.nVeh := by
            by_contra hge
            exact hE.young v (Nat.le_of_not_lt hge) l hent
          have : v ∈ visitors W a border := by
            unfold visitors
            rw [List.mem_filter, List.mem_range, decide_eq_true_eq]
            exact ⟨hvn, l, hl, hent⟩
          rw [hvis] at this; cases this
        rw [this]; simp
    exact ⟨hz.symm, le_rfl, fun s hs => by cases hs⟩

theorem reach_log1 {cfg : Config} {rng cs W} (hc : cfg.logInterval = 1) (h : runCmds cfg rng cs = .ok W) :
    Reachable (fun W => W.cfg.logInterval = 1) W := by
  have h1 := runCmds_cfg h
  have : ∀ {W : World}, Reachable Any W → W.cfg.logInterval = 1 → Reachable (fun W => W.cfg.logInterval = 1) W := by
    intro W hr
    induction hr with
    | new _ => exact fun h => .new h
    | next hr hs _ ih => exact fun h => .next (ih (by rw [← hs.cfg hr.inv]; exact h)) hs h
  exact this (runCmds_reachable h) (by rw [h1]; exact hc)

set_option maxRecDepth 100000 in
/-- C60 is false of the code while vehicles are in the area. The vehicles still on a link are subtracted from
the vehicles that have left it. After three steps two vehicles are on link 0 and nobody has left it: the table
says that the total travel time is 10 seconds (-1 for "unknown", times -10) and that the vehicles are driving
at -200 m/s. After five steps the total travel time is -50 seconds. The hypotheses of `C60_counts` are met. -/
theorem C60_false : ∃ W3 W5 r3 r5, Reachable (fun W => W.cfg.logInterval = 1) W3 ∧
    Reachable (fun W => W.cfg.logInterval = 1) W5 ∧
    (1 ≤ W3.T ∧ (∀ l, l < W3.nLinks → W3.L.u l ≠ 0 ∧ 0 < W3.L.length l) ∧ NoLabels W3 ∧
      (∀ n ∈ ([0] : List NodeId), n < W3.nNodes)) ∧
    W3.areaTable [[.obj 0]] true = .ok [r3] ∧ W5.areaTable [[.obj 0]] true = .ok [r5] ∧
    r3.nLinks = 1 ∧ r3.volume = 10 ∧ r3.remain = 10 ∧ r3.totalTime = 10 ∧ r3.speed = some (-200) ∧
    r5.volume = 15 ∧ r5.remain = 10 ∧ r5.totalTime = -50 := by
  have h : obs (runCmds demoCfg (fun _ => 0) (demo2 3)) (fun W => decide (1 ≤ W.T ∧
        (∀ l, l < W.nLinks → W.L.u l ≠ 0 ∧ 0 < W.L.length l) ∧
        NoLabels W ∧ (∀ n ∈ ([0] : List NodeId), n < W.nNodes)) &&
      obs (W.areaTable [[.obj 0]] true) (fun rs => match rs with
        | [r3] => decide (r3.nLinks = 1 ∧ r3.volume = 10 ∧ r3.remain = 10 ∧ r3.totalTime = 10 ∧
          r3.speed = some (-200))
        | _ => false)) = true := by decide +kernel
  have h' : obs (runCmds demoCfg (fun _ => 0) (demo2 5)) (fun W =>
      obs (W.areaTable [[.obj 0]] true) (fun rs => match rs with
        | [r5] => decide (r5.volume = 15 ∧ r5.remain = 10 ∧ r5.totalTime = -50)
        | _ => false)) = true := by decide +kernel
  obtain ⟨W3, a1, a2⟩ := obs_ok h
  simp only [Bool.and_eq_true] at a2
  obtain ⟨rs3, a3, a4⟩ := obs_ok a2.2
  obtain ⟨W5, b1, b2⟩ := obs_ok h'
  obtain ⟨rs5, b3, b4⟩ := obs_ok b2
  match rs3, rs5, a4, b4, a3, b3 with
  | [r3], [r5], a4, b4, a3, b3 =>
    obtain ⟨c1, c2, c3, c4, c5⟩ := of_decide_eq_true a4
    exact ⟨W3, W5, r3, r5, reach_log1 rfl a1, reach_log1 rfl b1, of_decide_eq_true a2.1, a3, b3,
      c1, c2, c3, c4, c5, of_decide_eq_true b4⟩

set_option maxRecDepth 100000 in
/-- The hypotheses of `C60_time_partial` are met, with two links in the area. -/
example : ∃ W r, Reachable (fun W => W.cfg.logInterval = 1) W ∧
    (1 ≤ W.T ∧ (∀ l, l < W.nLinks → W.L.u l ≠ 0 ∧ 0 < W.L.length l) ∧ NoLabels W ∧
      (∀ n ∈ ([1] : List NodeId), n < W.nNodes)) ∧ linksOf W [1] true = [0, 1] ∧
    W.areaTable [[.obj 1]] true = .ok [r] ∧ r.totalTime = 2475 / 4 ∧
    (∀ l ∈ linksOf W [1] true, W.L.vehs l = []) ∧ (∀ l ∈ linksOf W [1] true, ∃ q ∈ W.L.ttActual l, 0 < q) := by
  have h : obs (runCmds demoCfg (fun _ => 0) (demo2 12)) (fun W => decide (1 ≤ W.T ∧
        (∀ l, l < W.nLinks → W.L.u l ≠ 0 ∧ 0 < W.L.length l) ∧
        NoLabels W ∧ (∀ n ∈ ([1] : List NodeId), n < W.nNodes)) && (decide (linksOf W [1] true = [0, 1] ∧
          (∀ l ∈ linksOf W [1] true, W.L.vehs l = []) ∧
          (∀ l ∈ linksOf W [1] true, ∃ q ∈ W.L.ttActual l, 0 < q)) &&
      obs (W.areaTable [[.obj 1]] true) (fun rs => match rs with
        | [r] => decide (r.totalTime = 2475 / 4)
        | _ => false))) = true := by decide +kernel
  obtain ⟨W, a1, a2⟩ := obs_ok h
  simp only [Bool.and_eq_true] at a2
  obtain ⟨rs, a3, a4⟩ := obs_ok a2.2.2
  obtain ⟨c1, c2, c3⟩ := of_decide_eq_true a2.2.1
  match rs, a4, a3 with
  | [r], a4, a3 =>
    exact ⟨W, r, reach_log1 rfl a1, of_decide_eq_true a2.1, c1, a3, of_decide_eq_true a4, c2, c3⟩

end UX
