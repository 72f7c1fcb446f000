import Verif.Model.Tables
import Verif.Props.Edie
import Verif.Proofs.Tables
import Mathlib.Algebra.BigOperators.Group.Finset.Basic
import Mathlib.Algebra.BigOperators.Ring.Finset
import Mathlib.Algebra.Order.BigOperators.Group.Finset

/-!
# Network average flow and density (C64)
-/

namespace UX
open World

/-- Time of the segments of a trajectory that begin in time interval `i`. -/
def timeIn (dt : ℚ) (i : ℕ) (ps : List (ℚ × ℚ)) : ℚ :=
  alongPairs (fun p q => if i * dt ≤ p.1 ∧ p.1 < (i + 1) * dt then q.1 - p.1 else 0) ps

/-- Distance driven on these segments. -/
def distIn (dt : ℚ) (i : ℕ) (ps : List (ℚ × ℚ)) : ℚ :=
  alongPairs (fun p q => if i * dt ≤ p.1 ∧ p.1 < (i + 1) * dt then q.2 - p.2 else 0) ps

theorem alongPairs_add (f g : ℚ × ℚ → ℚ × ℚ → ℚ) : ∀ ps, alongPairs (fun p q => f p q + g p q) ps =
    alongPairs f ps + alongPairs g ps
  | [] => by simp [alongPairs]
  | [p] => by simp [alongPairs]
  | p :: q :: r => by
    have := alongPairs_add f g (q :: r)
    simp only [alongPairs] at this ⊢
    rw [this]; ring

theorem alongPairs_zero : ∀ ps, alongPairs (fun _ _ => 0) ps = 0
  | [] => rfl
  | [p] => rfl
  | p :: q :: r => by
    have := alongPairs_zero (q :: r)
    simp only [alongPairs] at this ⊢
    rw [this]; ring

theorem alongPairs_sum (f : ℕ → ℚ × ℚ → ℚ × ℚ → ℚ) (n : ℕ) (ps : List (ℚ × ℚ)) :
    ((List.range n).map fun j => alongPairs (f j) ps).sum =
      alongPairs (fun p q => ((List.range n).map fun j => f j p q).sum) ps := by
  induction n with
  | zero => simp only [List.range_zero, List.map_nil, List.sum_nil]; exact (alongPairs_zero ps).symm
  | succ n ih =>
    simp only [List.range_succ, List.map_append, List.sum_append, List.map_singleton, List.sum_singleton]
    rw [ih, alongPairs_add]

theorem alongPairs_mono {f g : ℚ × ℚ → ℚ × ℚ → ℚ} : ∀ {ps : List (ℚ × ℚ)},
    (ps.IsChain fun p q => f p q ≤ g p q) → alongPairs f ps ≤ alongPairs g ps
  | [], _ => le_rfl
  | [_], _ => le_rfl
  | p :: q :: r, h => by
    rw [List.isChain_cons_cons] at h
    have := alongPairs_mono h.2
    simp only [alongPairs]
    linarith [h.1]

theorem alongPairs_congr {f g : ℚ × ℚ → ℚ × ℚ → ℚ} {ps : List (ℚ × ℚ)}
    (h : ps.IsChain fun p q => f p q = g p q) : alongPairs f ps = alongPairs g ps :=
  le_antisymm (alongPairs_mono (h.imp fun _ _ e => e.le)) (alongPairs_mono (h.imp fun _ _ e => e.ge))

theorem segDist_sum {dt dx : ℚ} (hdx : 0 < dx) (i n : ℕ) {p q : ℚ × ℚ} (h0 : 0 ≤ p.2) (h1 : p.2 ≤ q.2)
    (h2 : q.2 ≤ n * dx) : ((List.range n).map fun j => segDist dt dx i j p q).sum =
      if i * dt ≤ p.1 ∧ p.1 < (i + 1) * dt then q.2 - p.2 else 0 := by
  unfold segDist
  split
  · rw [overlap_sum h1 hdx]
    unfold overlap
    rw [min_eq_left h2, max_eq_left h0, max_eq_right (by linarith)]
  · simp

theorem segTime_sum {dt dx u : ℚ} (hdx : 0 < dx) (i n : ℕ) {p q : ℚ × ℚ} (h0 : 0 ≤ p.2) (hs : StepOK u p q)
    (h2 : q.2 ≤ n * dx) :
    let s := ((List.range n).map fun j => segTime dt dx i j p q).sum
    let t := if i * dt ≤ p.1 ∧ p.1 < (i + 1) * dt then q.1 - p.1 else 0
    s ≤ t ∧ (p.2 < n * dx → s = t) := by
  obtain ⟨ht, hx, -⟩ := hs
  intro s t
  by_cases hi : (i : ℚ) * dt ≤ p.1 ∧ p.1 < ((i : ℚ) + 1) * dt
  · have et : t = q.1 - p.1 := if_pos hi
    by_cases hm : p.2 < q.2
    · have : s = t := by
        show List.sum _ = _
        rw [et]
        unfold segTime
        simp only [if_pos hi, if_pos hm]
        have : ((List.range n).map fun j : ℕ => overlap p.2 q.2 (j * dx) ((j + 1) * dx) * (q.1 - p.1) / (q.2 - p.2)) =
            ((List.range n).map fun j : ℕ => overlap p.2 q.2 (j * dx) ((j + 1) * dx) * ((q.1 - p.1) / (q.2 - p.2))) := by
          refine List.map_congr_left fun j _ => by ring
        rw [this, List.sum_map_mul_right, overlap_sum hx hdx]
        unfold overlap
        rw [min_eq_left h2, max_eq_left h0, max_eq_right (by linarith)]
        have : q.2 - p.2 ≠ 0 := by linarith
        field_simp
      exact ⟨this.le, fun _ => this⟩
    · have hs : s = ((List.range n).map fun j : ℕ =>
          if (j : ℚ) * dx ≤ p.2 ∧ p.2 < (j + 1) * dx then q.1 - p.1 else 0).sum := by
        show List.sum _ = _
        unfold segTime
        simp only [if_pos hi, if_neg hm]
      have hfl : ∀ j : ℕ, ((j : ℚ) * dx ≤ p.2 ∧ p.2 < (j + 1) * dx) ↔ j = ⌊p.2 / dx⌋.toNat := by
        intro j
        have hf : 0 ≤ ⌊p.2 / dx⌋ := Int.floor_nonneg.2 (div_nonneg h0 hdx.le)
        rw [cell_iff hdx j]; omega
      by_cases hlt : p.2 < n * dx
      · have hk : ⌊p.2 / dx⌋.toNat < n := by
          have : ⌊p.2 / dx⌋ < n := by
            rw [Int.floor_lt, div_lt_iff₀ hdx]; exact_mod_cast hlt
          have hf : 0 ≤ ⌊p.2 / dx⌋ := Int.floor_nonneg.2 (div_nonneg h0 hdx.le)
          omega
        have : s = t := by
          rw [hs, et]
          exact sum_one hk _ _ fun j => by simp only [hfl]
        exact ⟨this.le, fun _ => this⟩
      · refine ⟨?_, fun h => absurd h hlt⟩
        have : s = 0 := by
          rw [hs]
          rw [List.map_congr_left (g := fun _ => (0 : ℚ))]
          · simp
          · intro j hj
            have hj := List.mem_range.1 hj
            rw [if_neg]
            rintro ⟨-, h3⟩
            have : ((j : ℚ) + 1) * dx ≤ n * dx :=
              mul_le_mul_of_nonneg_right (by exact_mod_cast hj) hdx.le
            linarith
        rw [this, et]; linarith
  · have : s = t := by
      show List.sum _ = ite _ _ _
      unfold segTime
      simp only [if_neg hi]
      simp
    exact ⟨this.le, fun _ => this⟩

theorem sum_range_filter (f : LinkId → ℚ) {n : ℕ} {s : Finset LinkId} (h : ∀ l ∈ s, l < n) :
    (((List.range n).filter fun l => decide (l ∈ s)).map f).sum = ∑ l ∈ s, f l := by
  have hn : ((List.range n).filter fun l => decide (l ∈ s)).Nodup := List.nodup_range.filter _
  rw [← List.sum_toFinset f hn]
  congr 1
  ext l
  simp only [List.mem_toFinset, List.mem_filter, List.mem_range, decide_eq_true_eq]
  exact ⟨fun h => h.2, fun hl => ⟨h l hl, hl⟩⟩

theorem mfd_fold (links : Finset LinkId) (f g : ℕ → ℚ) (S : Mfd) (n : ℕ) : ∃ S',
    (List.range n).foldlM (m := M) (fun S i => pure { k := S.k.modify links fun a => upd a i (f i)
                                                      q := S.q.modify links fun a => upd a i (g i) }) S =
      .ok S' ∧ (∀ i, i < n → S'.k.val links i = f i ∧ S'.q.val links i = g i) ∧
    (∀ s, s ≠ links → S'.k.val s = S.k.val s ∧ S'.q.val s = S.q.val s) ∧
    (∀ s, s ∈ S'.k.keys ↔ s ∈ S.k.keys ∨ (s = links ∧ 0 < n)) ∧ (S.k.keys.Nodup → S'.k.keys.Nodup) := by
  induction n with
  | zero => exact ⟨S, rfl, fun i hi => by omega, fun _ _ => ⟨rfl, rfl⟩, fun s => by simp, id⟩
  | succ n ih =>
    obtain ⟨S1, h1, h2, h3, h4, h5⟩ := ih
    refine ⟨_, by rw [List.range_succ, List.foldlM_append, h1]; rfl, fun i hi => ?_, fun s hs => ?_, fun s => ?_,
      fun hn => DDict.modify_nodup _ _ _ (h5 hn)⟩
    · show upd S1.k.val links _ links i = _ ∧ upd S1.q.val links _ links i = _
      rw [upd_same, upd_same]
      by_cases e : i = n
      · subst e; rw [upd_same, upd_same]; exact ⟨rfl, rfl⟩
      · rw [upd_ne _ _ e, upd_ne _ _ e]; exact h2 i (by omega)
    · show upd S1.k.val links _ s = _ ∧ upd S1.q.val links _ s = _
      rw [upd_ne _ _ hs, upd_ne _ _ hs]; exact h3 s hs
    · rw [DDict.modify_mem, h4]
      constructor
      · rintro ((h | h) | h)
        · exact .inl h
        · exact .inr ⟨h.1, by omega⟩
        · exact .inr ⟨h, by omega⟩
      · rintro (h | h)
        · exact .inl (.inl h)
        · exact .inr h.1

/-- Number of space cells of a link. -/
def nCells (len dx : ℚ) : ℕ := (pyInt (len / dx)).toNat

/-- Vehicle time counted for link `l` in interval `i`: segment by segment, cell by cell. -/
def cellTime (W : World) (ts : LinkId → List Traj) (edt : ℚ) (edx : LinkId → ℚ) (i : ℕ) (l : LinkId) : ℚ :=
  W.dn * ((List.range (nCells (W.L.length l) (edx l))).map fun j =>
    ((ts l).map fun τ => alongPairs (segTime edt (edx l) i j) τ.pts).sum).sum

/-- Distance counted. -/
def cellDist (W : World) (ts : LinkId → List Traj) (edt : ℚ) (edx : LinkId → ℚ) (i : ℕ) (l : LinkId) : ℚ :=
  W.dn * ((List.range (nCells (W.L.length l) (edx l))).map fun j =>
    ((ts l).map fun τ => alongPairs (segDist edt (edx l) i j) τ.pts).sum).sum

theorem list_sum_mono {α : Type} {f g : α → ℚ} : ∀ {l : List α}, (∀ a ∈ l, f a ≤ g a) → (l.map f).sum ≤ (l.map g).sum
  | [], _ => le_rfl
  | a :: l, h => by
    have := list_sum_mono (l := l) fun b hb => h b (List.mem_cons_of_mem _ hb)
    have := h a List.mem_cons_self
    simp only [List.map_cons, List.sum_cons]; linarith

theorem computeMfd_ok {u0 : LinkId → ℚ} {OK : World → Prop} (hO : ∀ W, OK W → TrajOK u0 W) {W : World}
    (h : Reachable OK W) {tmax edt : ℚ} {edx : LinkId → ℚ} (hedt : 0 < edt)
    (hedx : ∀ l, l < W.nLinks → 0 < edx l) {links : Finset LinkId} (hl : ∀ l ∈ links, l < W.nLinks)
    (hpos : 0 < ∑ l ∈ links, W.L.length l) (S : Mfd) :
    ∃ S' ts, W.computeMfd tmax edt edx links S = .ok S' ∧ W.accurateTrajs = .ok ts ∧
      (∀ i, i < mfdSize tmax edt →
        S'.k.val links i = (∑ l ∈ links, cellTime W ts edt edx i l) / ((∑ l ∈ links, W.L.length l) * edt) ∧
        S'.q.val links i = (∑ l ∈ links, cellDist W ts edt edx i l) / ((∑ l ∈ links, W.L.length l) * edt)) ∧
      (∀ s, s ≠ links → S'.k.val s = S.k.val s ∧ S'.q.val s = S.q.val s) ∧
      (∀ s, s ∈ S'.k.keys ↔ s ∈ S.k.keys ∨ (s = links ∧ 0 < mfdSize tmax edt)) ∧
      (S.k.keys.Nodup → S'.k.keys.Nodup) := by
  obtain ⟨ts, ht, -⟩ := accurateTrajs_ok W (hO W h.ok).exact.phys.dt
  have hm : ∀ l, ∃ m, l < W.nLinks → W.edieState tmax edt (edx l) l = .ok m ∧
      m.nt = mfdSize tmax edt ∧ m.nx = nCells (W.L.length l) (edx l) ∧
      (∀ i, i < m.nt → ((List.range m.nx).map fun j => m.tn i j).sum = cellTime W ts edt edx i l ∧
        ((List.range m.nx).map fun j => m.dn i j).sum = cellDist W ts edt edx i l) := by
    intro l
    by_cases hl : l < W.nLinks
    · obtain ⟨m, ts', h1, h2, ⟨h3, h4⟩, h5⟩ := C56_cells hO h hl (tmax := tmax) hedt (hedx l hl)
      obtain rfl : ts' = ts := by rw [ht] at h2; cases h2; rfl
      refine ⟨m, fun _ => ⟨h1, h3, h4, fun i hi => ?_⟩⟩
      unfold cellTime cellDist nCells
      rw [← h4, ← List.sum_map_mul_left, ← List.sum_map_mul_left]
      constructor
      · refine congrArg List.sum (List.map_congr_left fun j hj => (h5 i j hi (List.mem_range.1 hj)).2.1)
      · refine congrArg List.sum (List.map_congr_left fun j hj => (h5 i j hi (List.mem_range.1 hj)).1)
    · exact ⟨⟨0, 0, fun _ _ => 0, fun _ _ => 0, fun _ _ => 0, fun _ _ => 0, fun _ _ => 0⟩, fun h => absurd h hl⟩
  choose m hm using hm
  have hmap : ((List.range W.nLinks).mapM fun l => do
      let m ← W.edieState tmax edt (edx l) l
      pure (l, m)) = .ok ((List.range W.nLinks).map fun l => (l, m l)) := by
    refine mapM_map fun l hl => ?_
    rw [(hm l (List.mem_range.1 hl)).1]; rfl
  have hfil : (((List.range W.nLinks).map fun l => (l, m l)).filter fun p => decide (p.1 ∈ links)) =
      ((List.range W.nLinks).filter fun l => decide (l ∈ links)).map fun l => (l, m l) := by
    rw [List.filter_map]; rfl
  have han : ((((List.range W.nLinks).filter fun l => decide (l ∈ links)).map fun l => (l, m l)).map
      fun p => W.L.length p.1 * edt).sum = (∑ l ∈ links, W.L.length l) * edt := by
    rw [List.map_map, Finset.sum_mul]
    exact sum_range_filter (fun l => W.L.length l * edt) hl
  have hrow : ∀ f : EdieMats → ℕ → ℕ → ℚ, ∀ i, ((((List.range W.nLinks).filter fun l => decide (l ∈ links)).map
      fun l => (l, m l)).map fun p => ((List.range p.2.nx).map fun j => f p.2 i j).sum).sum =
      ∑ l ∈ links, ((List.range (m l).nx).map fun j => f (m l) i j).sum := by
    intro f i
    rw [List.map_map]
    exact sum_range_filter (fun l => ((List.range (m l).nx).map fun j => f (m l) i j).sum) hl
  have hne : (∑ l ∈ links, W.L.length l) * edt ≠ 0 := (mul_pos hpos hedt).ne'
  obtain ⟨S', h1, h2, h3, h4, h5⟩ := mfd_fold links
    (fun i => (∑ l ∈ links, ((List.range (m l).nx).map fun j => (m l).tn i j).sum) /
      ((∑ l ∈ links, W.L.length l) * edt))
    (fun i => (∑ l ∈ links, ((List.range (m l).nx).map fun j => (m l).dn i j).sum) /
      ((∑ l ∈ links, W.L.length l) * edt)) { S with q := S.q.modify links id } (mfdSize tmax edt)
  refine ⟨S', ts, ?_, ht, fun i hi => ?_, fun s hs => ?_, h4, h5⟩
  · unfold computeMfd
    rw [hmap, ok_bind]
    dsimp only
    rw [hfil, han]
    simp only [hrow, if_neg hne]
    exact h1
  · obtain ⟨a, b⟩ := h2 i hi
    rw [a, b]
    constructor
    · congr 1
      exact Finset.sum_congr rfl fun l hll => by
        have := hm l (hl l hll)
        exact (this.2.2.2 i (by rw [this.2.1]; exact hi)).1
    · congr 1
      exact Finset.sum_congr rfl fun l hll => by
        have := hm l (hl l hll)
        exact (this.2.2.2 i (by rw [this.2.1]; exact hi)).2
  · obtain ⟨a, b⟩ := h3 s hs
    refine ⟨a, b.trans ?_⟩
    exact upd_ne _ _ hs

/-- C64: `compute_mfd` never raises for links with a positive total length. The density it stores for a time interval is
the vehicle time counted on the links divided by their length and the interval, the flow is the distance counted
divided by the same. Both are not negative, and the flow is at most the density times the greatest free-flow
speed. Values of other sets of links stay. -/
theorem C64_mfd {u0 : LinkId → ℚ} {OK : World → Prop} (hO : ∀ W, OK W → TrajOK u0 W) {W : World}
    (h : Reachable OK W) {tmax edt : ℚ} {edx : LinkId → ℚ} (hedt : 0 < edt)
    (hedx : ∀ l, l < W.nLinks → 0 < edx l) {links : Finset LinkId} (hl : ∀ l ∈ links, l < W.nLinks)
    (hpos : 0 < ∑ l ∈ links, W.L.length l) (S : Mfd) :
    ∃ S' ts, W.computeMfd tmax edt edx links S = .ok S' ∧ W.accurateTrajs = .ok ts ∧
      (∀ i, i < mfdSize tmax edt →
        S'.k.val links i = (∑ l ∈ links, cellTime W ts edt edx i l) / ((∑ l ∈ links, W.L.length l) * edt) ∧
        S'.q.val links i = (∑ l ∈ links, cellDist W ts edt edx i l) / ((∑ l ∈ links, W.L.length l) * edt) ∧
        0 ≤ S'.k.val links i ∧ 0 ≤ S'.q.val links i ∧
        ∀ U, (∀ l ∈ links, W.L.u l ≤ U) → S'.q.val links i ≤ U * S'.k.val links i) ∧
      ∀ s, s ≠ links → S'.k.val s = S.k.val s ∧ S'.q.val s = S.q.val s := by
  obtain ⟨S', ts, h1, ht, h3, h4, -⟩ := computeMfd_ok hO h (tmax := tmax) hedt hedx hl hpos S
  have hA : 0 < (∑ l ∈ links, W.L.length l) * edt := mul_pos hpos hedt
  have hch : ∀ l ∈ links, ∀ τ ∈ ts l, τ.pts.IsChain (StepOK (W.L.u l)) := fun l hll τ hτ =>
    (C55_good hO h ht (hl l hll) hτ).step
  have hu : ∀ l ∈ links, 0 ≤ W.L.u l := fun l hll => by
    have := (hO W h.ok).exact.u l (hl l hll); rw [this.1]; exact this.2.le
  have ht0 : ∀ i, ∀ l ∈ links, 0 ≤ cellTime W ts edt edx i l := by
    intro i l hll
    refine mul_nonneg (Nat.cast_nonneg _) (List.sum_nonneg fun q hq => ?_)
    obtain ⟨j, -, rfl⟩ := List.mem_map.1 hq
    refine List.sum_nonneg fun q hq => ?_
    obtain ⟨τ, hτ, rfl⟩ := List.mem_map.1 hq
    exact alongPairs_nonneg (fun p q hpq => segTime_nonneg i j hpq) _ (hch l hll τ hτ)
  have hd0 : ∀ i, ∀ l ∈ links, 0 ≤ cellDist W ts edt edx i l := by
    intro i l hll
    refine mul_nonneg (Nat.cast_nonneg _) (List.sum_nonneg fun q hq => ?_)
    obtain ⟨j, -, rfl⟩ := List.mem_map.1 hq
    refine List.sum_nonneg fun q hq => ?_
    obtain ⟨τ, hτ, rfl⟩ := List.mem_map.1 hq
    exact alongPairs_nonneg (fun p q hpq => segDist_nonneg _ _ i j p q) _ (hch l hll τ hτ)
  have hle : ∀ i, ∀ l ∈ links, cellDist W ts edt edx i l ≤ W.L.u l * cellTime W ts edt edx i l := by
    intro i l hll
    unfold cellDist cellTime
    rw [← mul_assoc, mul_comm (W.L.u l), mul_assoc]
    refine mul_le_mul_of_nonneg_left ?_ (Nat.cast_nonneg _)
    rw [← List.sum_map_mul_left]
    refine list_sum_mono fun j _ => ?_
    rw [← List.sum_map_mul_left]
    exact list_sum_mono fun τ hτ => alongPairs_le (fun p q hpq => segDist_le (hu l hll) i j hpq) _ (hch l hll τ hτ)
  refine ⟨S', ts, h1, ht, fun i hi => ?_, h4⟩
  obtain ⟨a, b⟩ := h3 i hi
  refine ⟨a, b, ?_, ?_, fun U hU => ?_⟩
  · rw [a]; exact div_nonneg (Finset.sum_nonneg (ht0 i)) hA.le
  · rw [b]; exact div_nonneg (Finset.sum_nonneg (hd0 i)) hA.le
  · rw [a, b, ← mul_div_assoc]
    refine div_le_div_of_nonneg_right ?_ hA.le
    rw [Finset.mul_sum]
    refine Finset.sum_le_sum fun l hll => (hle i l hll).trans ?_
    exact mul_le_mul_of_nonneg_right (hU l hll) (ht0 i l hll)

/-- C64 as far as it holds: if the space cells divide the links, the flow is exact: DELTAN times the distance driven
on the links in the interval. The vehicle time is counted as far as vehicles do not stand at the very end of a link.
Segments of trajectories count for the interval in which they begin. -/
theorem C64_exact_partial {u0 : LinkId → ℚ} {OK : World → Prop} (hO : ∀ W, OK W → TrajOK u0 W) {W : World}
    (h : Reachable OK W) {edt : ℚ} {edx : LinkId → ℚ} {l : LinkId} (hl : l < W.nLinks)
    (hedx : 0 < edx l) (hdiv : nCells (W.L.length l) (edx l) * edx l = W.L.length l)
    {ts : LinkId → List Traj} (ht : W.accurateTrajs = .ok ts) (i : ℕ) :
    cellDist W ts edt edx i l = W.dn * ((ts l).map fun τ => distIn edt i τ.pts).sum ∧
    cellTime W ts edt edx i l ≤ W.dn * ((ts l).map fun τ => timeIn edt i τ.pts).sum ∧
    ((∀ τ ∈ ts l, ∀ p ∈ τ.pts.dropLast, p.2 < W.L.length l) →
      cellTime W ts edt edx i l = W.dn * ((ts l).map fun τ => timeIn edt i τ.pts).sum) := by
  have hswap : ∀ f : ℕ → ℚ × ℚ → ℚ × ℚ → ℚ, ∀ n,
      ((List.range n).map fun j => ((ts l).map fun τ => alongPairs (f j) τ.pts).sum).sum =
      ((ts l).map fun τ => alongPairs (fun p q => ((List.range n).map fun j => f j p q).sum) τ.pts).sum := by
    intro f n
    generalize ts l = xs
    induction xs with
    | nil => simp
    | cons τ xs ih =>
      simp only [List.map_cons, List.sum_cons]
      rw [List.sum_map_add, ih, alongPairs_sum]
  have hg : ∀ τ ∈ ts l, GoodTraj (W.L.u l) (W.L.length l) τ.pts := fun τ hτ => C55_good hO h ht hl hτ
  have hmem : ∀ τ ∈ ts l, τ.pts.IsChain fun p q => p ∈ τ.pts.dropLast ∧ 0 ≤ p.2 ∧ StepOK (W.L.u l) p q ∧
      q.2 ≤ nCells (W.L.length l) (edx l) * edx l := by
    intro τ hτ
    have hs := (hg τ hτ).step
    rw [List.isChain_iff_getElem] at hs ⊢
    intro k hk
    refine ⟨?_, ((hg τ hτ).pt _ (List.getElem_mem _)).2.1, hs k hk, ?_⟩
    · rw [List.mem_iff_getElem]
      exact ⟨k, by rw [List.length_dropLast]; omega, List.getElem_dropLast _⟩
    · rw [hdiv]; exact ((hg τ hτ).pt _ (List.getElem_mem _)).2.2
  have hn0 : (0 : ℚ) ≤ W.dn := Nat.cast_nonneg _
  unfold cellDist cellTime
  rw [hswap, hswap]
  refine ⟨?_, ?_, fun hend => ?_⟩
  · congr 2
    refine List.map_congr_left fun τ hτ => alongPairs_congr ((hmem τ hτ).imp ?_)
    rintro p q ⟨-, h0, hs, h2⟩
    exact segDist_sum hedx i _ h0 hs.2.1 h2
  · refine mul_le_mul_of_nonneg_left (list_sum_mono fun τ hτ => alongPairs_mono ((hmem τ hτ).imp ?_)) hn0
    rintro p q ⟨-, h0, hs, h2⟩
    exact (segTime_sum hedx i _ h0 hs h2).1
  · congr 2
    refine List.map_congr_left fun τ hτ => alongPairs_congr ((hmem τ hτ).imp ?_)
    rintro p q ⟨hp, h0, hs, h2⟩
    exact (segTime_sum hedx i _ h0 hs h2).2 (by rw [hdiv]; exact hend τ hτ p hp)

/-- C64: the rows of `mfd_to_pandas` show the times, densities and flows of the first time intervals. Their number
is the number of sets of links asked for so far, not the number of intervals; with more sets than intervals the
call raises `IndexError`. -/
theorem C64_table_partial {W : World} {tmax edt : ℚ} {edx : LinkId → ℚ} {links : Finset LinkId} {S S' : Mfd}
    (h : W.computeMfd tmax edt edx links S = .ok S') :
    let n := S'.k.keys.length
    (n ≤ mfdSize tmax edt → W.mfdTable tmax edt edx links S = .ok (S', (List.range n).map fun i : ℕ =>
      ((i : ℚ) * edt, S'.k.val links i, S'.q.val links i))) ∧
    (mfdSize tmax edt < n → W.mfdTable tmax edt edx links S = .error .indexError) := by
  intro n
  unfold mfdTable
  rw [h, ok_bind]
  constructor
  · intro hn
    have := mapM_map (f := fun i : ℕ => (do
      if i < mfdSize tmax edt then pure ((i : ℚ) * edt, S'.k.val links i, S'.q.val links i)
      else throw .indexError : M (ℚ × ℚ × ℚ)))
      (g := fun i : ℕ => ((i : ℚ) * edt, S'.k.val links i, S'.q.val links i)) (l := List.range n) fun i hi => by
        rw [if_pos (by have := List.mem_range.1 hi; omega)]; rfl
    rw [this]; rfl
  · intro hn
    have := mapM_error (e := .indexError) (f := fun i : ℕ => (do
      if i < mfdSize tmax edt then pure ((i : ℚ) * edt, S'.k.val links i, S'.q.val links i)
      else throw .indexError : M (ℚ × ℚ × ℚ))) (l := List.range n) (fun i hi => by
        by_cases e : i < mfdSize tmax edt
        · exact .inr ⟨_, if_pos e⟩
        · exact .inl (if_neg e)) ⟨mfdSize tmax edt, List.mem_range.2 hn, if_neg (lt_irrefl _)⟩
    rw [this]; rfl

/-- C64: which sets of links are counted. -/
theorem C64_keys {u0 : LinkId → ℚ} {OK : World → Prop} (hO : ∀ W, OK W → TrajOK u0 W) {W : World}
    (h : Reachable OK W) {tmax edt : ℚ} {edx : LinkId → ℚ} (hedt : 0 < edt)
    (hedx : ∀ l, l < W.nLinks → 0 < edx l) {links : Finset LinkId} (hl : ∀ l ∈ links, l < W.nLinks)
    (hpos : 0 < ∑ l ∈ links, W.L.length l) (hsize : 0 < mfdSize tmax edt) {S S' : Mfd} (hn : S.k.keys.Nodup)
    (hS : W.computeMfd tmax edt edx links S = .ok S') :
    S'.k.keys.length = (insert links S.k.keys.toFinset).card := by
  obtain ⟨S1, ts, h1, -, -, -, h4, h5⟩ := computeMfd_ok hO h (tmax := tmax) hedt hedx hl hpos S
  obtain rfl : S1 = S' := by rw [hS] at h1; cases h1; rfl
  rw [← List.toFinset_card_of_nodup (h5 hn)]
  congr 1
  ext s
  simp only [List.mem_toFinset, Finset.mem_insert, h4 s]
  tauto

/-- `demo2` with a link that nobody but the first vehicle can leave. -/
def blockDemo (k : ℕ) : List Cmd := demo2 0 ++ [.capOut 0 0] ++ List.replicate k .tick

set_option maxRecDepth 100000 in
/-- C64 is false of the code in two ways. Vehicle 1 stands at the end of link 0 for half a minute, which is not counted
in the density: the five vehicles of its platoon miss 150 s of the 762.5 s spent on the link. And the table has one row
only, though there are five time intervals. The hypotheses of `C64_mfd` and `C64_table_partial` are met. -/
theorem C64_false : ∃ W ts S' rows, Reachable (TrajOK fun _ => 20) W ∧ W.nLinks = 2 ∧
    (∑ l ∈ ({0} : Finset LinkId), W.L.length l) = 200 ∧ W.accurateTrajs = .ok ts ∧
    W.mfdTable 300 60 (fun _ => 100) {0} Mfd.empty = .ok (S', rows) ∧
    W.computeMfd 300 60 (fun _ => 100) {0} Mfd.empty = .ok S' ∧
    nCells (W.L.length 0) 100 * 100 = W.L.length 0 ∧ mfdSize 300 60 = 5 ∧
    rows = [(0, 49/960, 5/12)] ∧ cellTime W ts 60 (fun _ => 100) 0 0 = 1225/2 ∧
    W.dn * ((ts 0).map fun τ => timeIn 60 0 τ.pts).sum = 1525/2 := by
  have h : obs (runChecked trajCheck demoCfg (fun _ => 0) (blockDemo 12)) (fun W =>
      decide (W.nLinks = 2 ∧ W.L.length 0 = 200) &&
      obs W.accurateTrajs (fun ts => obs (W.mfdTable 300 60 (fun _ => 100) {0} Mfd.empty) (fun p =>
        decide (nCells (W.L.length 0) 100 * 100 = W.L.length 0 ∧ mfdSize 300 60 = 5 ∧
          p.2 = [(0, 49/960, 5/12)] ∧ cellTime W ts 60 (fun _ => 100) 0 0 = 1225/2 ∧
          W.dn * ((ts 0).map fun τ => timeIn 60 0 τ.pts).sum = 1525/2)))) = true := by decide +kernel
  obtain ⟨W, h1, h2⟩ := obs_ok h
  simp only [Bool.and_eq_true] at h2
  obtain ⟨ts, h3, h4⟩ := obs_ok h2.2
  obtain ⟨⟨S', rows⟩, h5, h6⟩ := obs_ok h4
  have h6 := of_decide_eq_true h6
  have h2 := of_decide_eq_true h2.1
  refine ⟨W, ts, S', rows, runChecked_reachable' (fun W hc hp => trajCheck_ok hc hp) h1, h2.1, ?_, h3, h5, ?_, h6⟩
  · rw [Finset.sum_singleton]; exact h2.2
  · unfold mfdTable at h5
    obtain ⟨S1, e1, h5⟩ := bind_ok.mp h5
    obtain ⟨r1, -, h5⟩ := bind_ok.mp h5
    cases h5
    exact e1

end UX
