import Verif.Model.Edie
import Verif.Spec.Edie
import Verif.Proofs.Stats
import Mathlib.Tactic.FieldSimp
import Mathlib.Tactic.Linarith
import Mathlib.Tactic.Ring

/-! # The cells of `compute_edie_state` -/

namespace UX

/-! ## Dictionaries of numbers -/

/-- Sum of the stored values. -/
def DDict.total (d : DDict String ℚ) : ℚ := (d.keys.map d.val).sum

structure DDict.Good (d : DDict String ℚ) : Prop where
  nodup : d.keys.Nodup
  zero : ∀ k, k ∉ d.keys → d.val k = 0

theorem sum_map_upd (f : String → ℚ) (k : String) (q : ℚ) (l : List String) (h : l.Nodup) :
    (l.map (upd f k (f k + q))).sum = (l.map f).sum + if k ∈ l then q else 0 := by
  induction l with
  | nil => simp
  | cons a l ih =>
    rw [List.nodup_cons] at h
    rw [List.map_cons, List.map_cons, List.sum_cons, List.sum_cons, ih h.2]
    by_cases e : a = k
    · subst e
      rw [upd_same, if_neg h.1, if_pos List.mem_cons_self]; ring
    · rw [upd_ne _ _ e]
      have : k ∈ a :: l ↔ k ∈ l := by
        rw [List.mem_cons]; exact ⟨fun h => h.resolve_left (fun h => e h.symm), .inr⟩
      simp only [this]; ring

theorem DDict.Good.modify {d : DDict String ℚ} (h : d.Good) (k : String) (q : ℚ) :
    (d.modify k (· + q)).Good ∧ (d.modify k (· + q)).total = d.total + q := by
  refine ⟨⟨DDict.modify_nodup _ _ _ h.nodup, fun j hj => ?_⟩, ?_⟩
  · rw [DDict.modify_mem] at hj
    have hjk : j ≠ k := fun e => hj (by simp [e])
    have hjd : j ∉ d.keys := fun e => hj (by simp [e])
    show upd d.val k _ j = 0
    rw [upd_ne _ _ hjk]; exact h.zero j hjd
  · unfold DDict.total DDict.modify
    dsimp only
    by_cases hk : k ∈ d.keys
    · rw [if_pos hk, sum_map_upd _ _ _ _ h.nodup, if_pos hk]
    · rw [if_neg hk, List.map_append, List.sum_append, sum_map_upd _ _ _ _ h.nodup, if_neg hk]
      simp [upd_same, h.zero k hk]

theorem DDict.good_empty : (DDict.empty (κ := String) (0 : ℚ)).Good ∧
    (DDict.empty (κ := String) (0 : ℚ)).total = 0 :=
  ⟨⟨by simp [DDict.empty], fun _ _ => rfl⟩, by simp [DDict.total, DDict.empty]⟩

theorem sumValues_eq (n : ℕ) (d : DDict String ℚ) : sumValues n d = n * d.total := by
  unfold sumValues DDict.total
  induction n with
  | zero => simp
  | succ n ih =>
    rw [List.replicate_succ, List.flatten_cons, List.sum_append, ih]
    push_cast; ring

/-! ## Cells -/

def Cells.Good (C : Cells) : Prop := ∀ i j, (C.tn i j).Good ∧ (C.dn i j).Good

/-- `C'` is `C` with distance `d i j` and time `t i j` added to each cell. -/
structure Cells.Plus (C C' : Cells) (nt nx : ℕ) (d t : ℕ → ℕ → ℚ) : Prop where
  good : C'.Good
  dn : ∀ i j, i < nt → j < nx → (C'.dn i j).total = (C.dn i j).total + d i j
  tn : ∀ i j, i < nt → j < nx → (C'.tn i j).total = (C.tn i j).total + t i j

theorem Cells.Plus.trans {C C' C'' : Cells} {nt nx d t d' t'} (h : C.Plus C' nt nx d t)
    (h' : C'.Plus C'' nt nx d' t') :
    C.Plus C'' nt nx (fun i j => d i j + d' i j) (fun i j => t i j + t' i j) :=
  ⟨h'.good, fun i j hi hj => by rw [h'.dn i j hi hj, h.dn i j hi hj, add_assoc],
    fun i j hi hj => by rw [h'.tn i j hi hj, h.tn i j hi hj, add_assoc]⟩

theorem Cells.Plus.congr {C C' : Cells} {nt nx d t d' t'} (h : C.Plus C' nt nx d t)
    (h1 : ∀ i j, i < nt → j < nx → d i j = d' i j) (h2 : ∀ i j, i < nt → j < nx → t i j = t' i j) :
    C.Plus C' nt nx d' t' :=
  ⟨h.good, fun i j hi hj => by rw [h.dn i j hi hj, h1 i j hi hj],
    fun i j hi hj => by rw [h.tn i j hi hj, h2 i j hi hj]⟩

theorem Cells.Plus.zero {C : Cells} (h : C.Good) (nt nx : ℕ) :
    C.Plus C nt nx (fun _ _ => 0) (fun _ _ => 0) :=
  ⟨h, fun _ _ _ _ => by simp, fun _ _ _ _ => by simp⟩

theorem pyIdx_nat {n : ℕ} {i : ℤ} (h0 : 0 ≤ i) (h1 : i < n) : pyIdx n i = .ok i.toNat := by
  unfold pyIdx; rw [if_pos ⟨h0, h1⟩]

theorem Cells.add_ok {C : Cells} (h : C.Good) {nt nx : ℕ} {i j : ℤ} (hi0 : 0 ≤ i) (hi : i < nt)
    (hj0 : 0 ≤ j) (hj : j < nx) (name : String) (d t : ℚ) :
    ∃ C', C.add nt nx name i j d t = .ok C' ∧
      C.Plus C' nt nx (fun a b => if (a : ℤ) = i ∧ (b : ℤ) = j then d else 0)
        (fun a b => if (a : ℤ) = i ∧ (b : ℤ) = j then t else 0) := by
  unfold Cells.add
  rw [pyIdx_nat hi0 hi, pyIdx_nat hj0 hj]
  refine ⟨_, rfl, ?_, ?_, ?_⟩
  · intro a b
    dsimp only
    refine ⟨?_, ?_⟩
    · rw [upd_apply]; split
      · rename_i e; subst e
        rw [upd_apply]; split
        · rename_i e; subst e; exact ((h _ _).1.modify _ _).1
        · exact (h _ _).1
      · exact (h _ _).1
    · rw [upd_apply]; split
      · rename_i e; subst e
        rw [upd_apply]; split
        · rename_i e; subst e; exact ((h _ _).2.modify _ _).1
        · exact (h _ _).2
      · exact (h _ _).2
  · intro a b _ _
    dsimp only
    have e1 : (a : ℤ) = i ↔ a = i.toNat := by omega
    have e2 : (b : ℤ) = j ↔ b = j.toNat := by omega
    rw [upd_apply]
    by_cases ha : a = i.toNat
    · rw [if_pos ha, upd_apply]
      by_cases hb : b = j.toNat
      · rw [if_pos hb, if_pos ⟨e1.2 ha, e2.2 hb⟩, ((h _ _).2.modify _ _).2, ha, hb]
      · rw [if_neg hb, if_neg (fun h => hb (e2.1 h.2)), add_zero, ha]
    · rw [if_neg ha, if_neg (fun h => ha (e1.1 h.1)), add_zero]
  · intro a b _ _
    dsimp only
    have e1 : (a : ℤ) = i ↔ a = i.toNat := by omega
    have e2 : (b : ℤ) = j ↔ b = j.toNat := by omega
    rw [upd_apply]
    by_cases ha : a = i.toNat
    · rw [if_pos ha, upd_apply]
      by_cases hb : b = j.toNat
      · rw [if_pos hb, if_pos ⟨e1.2 ha, e2.2 hb⟩, ((h _ _).1.modify _ _).2, ha, hb]
      · rw [if_neg hb, if_neg (fun h => hb (e2.1 h.2)), add_zero, ha]
    · rw [if_neg ha, if_neg (fun h => ha (e1.1 h.1)), add_zero]

/-- Amount for the `j`-th crossed cell. -/
def crossAmt (xl0 xl1 dx : ℚ) (jj : ℕ) (j : ℤ) : ℚ := if j = 0 then xl0 else if j + 1 = jj then xl1 else dx

theorem Cells.cross_ok {C : Cells} (h : C.Good) {nt nx : ℕ} {dx : ℚ} {tt xx : ℤ} (ht0 : 0 ≤ tt) (ht : tt < nt)
    (hx0 : 0 ≤ xx) (name : String) (v0 xl0 xl1 : ℚ) (jj : ℕ) (m : ℕ) :
    ∃ C', (List.range m).foldlM (Cells.cross nt nx dx name v0 xl0 xl1 tt xx jj) C = .ok C' ∧
      C.Plus C' nt nx
        (fun a b => if (a : ℤ) = tt ∧ xx ≤ b ∧ (b : ℤ) < xx + m then crossAmt xl0 xl1 dx jj (b - xx) else 0)
        (fun a b => if (a : ℤ) = tt ∧ xx ≤ b ∧ (b : ℤ) < xx + m then crossAmt xl0 xl1 dx jj (b - xx) / v0 else 0) := by
  induction m with
  | zero =>
    refine ⟨C, rfl, (Cells.Plus.zero h nt nx).congr ?_ ?_⟩ <;>
    · intro a b _ _
      rw [if_neg]; rintro ⟨_, h1, h2⟩; push_cast at h2; omega
  | succ m ih =>
    obtain ⟨C1, h1, p1⟩ := ih
    rw [List.range_succ, List.foldlM_append, h1]
    have hstep : ∃ C2, Cells.cross nt nx dx name v0 xl0 xl1 tt xx jj C1 m = .ok C2 ∧
        C1.Plus C2 nt nx
          (fun a b => if (a : ℤ) = tt ∧ (b : ℤ) = xx + m then crossAmt xl0 xl1 dx jj m else 0)
          (fun a b => if (a : ℤ) = tt ∧ (b : ℤ) = xx + m then crossAmt xl0 xl1 dx jj m / v0 else 0) := by
      unfold Cells.cross
      by_cases hlt : xx + m < nx
      · rw [if_pos hlt]
        have hadd := fun d t => Cells.add_ok p1.good ht0 ht (j := xx + m) (by omega) hlt name d t
        by_cases hm0 : m = 0
        · have ha : crossAmt xl0 xl1 dx jj m = xl0 := by unfold crossAmt; exact if_pos (by omega)
          rw [if_pos hm0, ha]; exact hadd _ _
        · rw [if_neg hm0]
          by_cases hm1 : m + 1 = jj
          · have ha : crossAmt xl0 xl1 dx jj m = xl1 := by
              unfold crossAmt; rw [if_neg (by omega)]; exact if_pos (by omega)
            rw [if_pos hm1, ha]; exact hadd _ _
          · have ha : crossAmt xl0 xl1 dx jj m = dx := by
              unfold crossAmt; rw [if_neg (by omega)]; exact if_neg (by omega)
            rw [if_neg hm1, ha]; exact hadd _ _
      · rw [if_neg hlt]
        refine ⟨C1, rfl, (Cells.Plus.zero p1.good nt nx).congr ?_ ?_⟩ <;>
        · intro a b _ hb
          rw [if_neg]; rintro ⟨_, h2⟩; omega
    obtain ⟨C2, h2, p2⟩ := hstep
    refine ⟨C2, ?_, (p1.trans p2).congr ?_ ?_⟩
    · show [m].foldlM (Cells.cross nt nx dx name v0 xl0 xl1 tt xx jj) C1 = _
      rw [List.foldlM_cons, h2]; rfl
    · intro a b _ _
      by_cases ha : (a : ℤ) = tt
      · by_cases hb : (b : ℤ) = xx + m
        · rw [if_neg (by rintro ⟨_, _, h⟩; omega), if_pos ⟨ha, hb⟩,
            if_pos ⟨ha, by omega, by push_cast; omega⟩, zero_add, show (b : ℤ) - xx = m by omega]
        · rw [if_neg (c := (a : ℤ) = tt ∧ (b : ℤ) = xx + m) (fun h => hb h.2), add_zero]
          have : ((a : ℤ) = tt ∧ xx ≤ b ∧ (b : ℤ) < xx + m) ↔
              ((a : ℤ) = tt ∧ xx ≤ b ∧ (b : ℤ) < xx + (m + 1 : ℕ)) := by push_cast; omega
          simp only [this]
      · rw [if_neg (fun h => ha h.1), if_neg (fun h => ha h.1), if_neg (fun h => ha h.1), add_zero]
    · intro a b _ _
      by_cases ha : (a : ℤ) = tt
      · by_cases hb : (b : ℤ) = xx + m
        · rw [if_neg (by rintro ⟨_, _, h⟩; omega), if_pos ⟨ha, hb⟩,
            if_pos ⟨ha, by omega, by push_cast; omega⟩, zero_add, show (b : ℤ) - xx = m by omega]
        · rw [if_neg (c := (a : ℤ) = tt ∧ (b : ℤ) = xx + m) (fun h => hb h.2), add_zero]
          have : ((a : ℤ) = tt ∧ xx ≤ b ∧ (b : ℤ) < xx + m) ↔
              ((a : ℤ) = tt ∧ xx ≤ b ∧ (b : ℤ) < xx + (m + 1 : ℕ)) := by push_cast; omega
          simp only [this]
      · rw [if_neg (fun h => ha h.1), if_neg (fun h => ha h.1), if_neg (fun h => ha h.1), add_zero]

/-! ## The overlap of a segment with a cell -/

theorem floor_cell {x dx : ℚ} (hdx : 0 < dx) (b : ℤ) : b = ⌊x / dx⌋ ↔ b * dx ≤ x ∧ x < (b + 1) * dx := by
  rw [eq_comm, Int.floor_eq_iff, le_div_iff₀ hdx, div_lt_iff₀ hdx]

theorem floor_bounds {x dx : ℚ} (hdx : 0 < dx) : (⌊x / dx⌋ : ℚ) * dx ≤ x ∧ x < (⌊x / dx⌋ + 1) * dx :=
  (floor_cell hdx _).1 rfl

theorem overlap_zero {a b c d : ℚ} (h : d ≤ a ∨ b ≤ c) : overlap a b c d = 0 := by
  unfold overlap
  refine max_eq_left ?_
  rcases h with h | h
  · have h1 := min_le_right b d; have h2 := le_max_left a c; linarith
  · have h1 := min_le_left b d; have h2 := le_max_right a c; linarith

theorem cast_step {dx : ℚ} (hdx : 0 < dx) {a b : ℤ} (h : a + 1 ≤ b) : ((a : ℚ) + 1) * dx ≤ b * dx := by
  have : (a : ℚ) + 1 ≤ b := by exact_mod_cast h
  exact mul_le_mul_of_nonneg_right this hdx.le

/-- Same cell. -/
theorem overlap_same {x0 x1 dx : ℚ} (hdx : 0 < dx) (h01 : x0 ≤ x1) (he : ⌊x0 / dx⌋ = ⌊x1 / dx⌋) (b : ℤ) :
    overlap x0 x1 (b * dx) ((b + 1) * dx) = if b = ⌊x0 / dx⌋ then x1 - x0 else 0 := by
  have f0 := floor_bounds (x := x0) hdx
  have f1 := floor_bounds (x := x1) hdx
  rw [← he] at f1
  split
  · rename_i e
    rw [e]
    unfold overlap
    rw [min_eq_left f1.2.le, max_eq_left f0.1, max_eq_right (by linarith)]
  · rename_i e
    rcases lt_or_gt_of_ne e with h | h
    · have := cast_step hdx (show b + 1 ≤ ⌊x0 / dx⌋ by omega)
      exact overlap_zero (.inl (by linarith))
    · have := cast_step hdx (show ⌊x0 / dx⌋ + 1 ≤ b by omega)
      exact overlap_zero (.inr (by linarith))

/-- Several cells. -/
theorem overlap_cross {x0 x1 dx : ℚ} (hdx : 0 < dx) (he : ⌊x0 / dx⌋ < ⌊x1 / dx⌋) (b : ℤ) :
    overlap x0 x1 (b * dx) ((b + 1) * dx) =
      if ⌊x0 / dx⌋ ≤ b ∧ b < ⌊x0 / dx⌋ + (⌊x1 / dx⌋ - ⌊x0 / dx⌋ + 1).toNat then
        crossAmt (dx - pyMod x0 dx) (pyMod x1 dx) dx (⌊x1 / dx⌋ - ⌊x0 / dx⌋ + 1).toNat (b - ⌊x0 / dx⌋) else 0 := by
  have f0 := floor_bounds (x := x0) hdx
  have f1 := floor_bounds (x := x1) hdx
  unfold pyMod
  generalize ⌊x0 / dx⌋ = k at *
  generalize ⌊x1 / dx⌋ = e at *
  have hn : (((e - k + 1).toNat : ℕ) : ℤ) = e - k + 1 := by omega
  rw [hn]
  by_cases h1 : b < k
  · rw [if_neg (by omega)]
    have := cast_step hdx (show b + 1 ≤ k by omega)
    exact overlap_zero (.inl (by linarith))
  by_cases h2 : e < b
  · rw [if_neg (by omega)]
    have := cast_step hdx (show e + 1 ≤ b by omega)
    exact overlap_zero (.inr (by linarith))
  rw [if_pos (by omega)]
  unfold crossAmt
  rw [hn]
  unfold overlap
  by_cases h3 : b = k
  · subst h3
    rw [if_pos (by omega)]
    have := cast_step hdx (show b + 1 ≤ e by omega)
    rw [min_eq_right (by linarith), max_eq_left f0.1, max_eq_right (by linarith)]; ring
  · rw [if_neg (by omega)]
    have hk := cast_step hdx (show k + 1 ≤ b by omega)
    by_cases h4 : b = e
    · subst h4
      rw [if_pos (by omega), min_eq_left f1.2.le, max_eq_right (show x0 ≤ b * dx by linarith), max_eq_right (by linarith)]; ring
    · rw [if_neg (by omega)]
      have hb := cast_step hdx (show b + 1 ≤ e by omega)
      rw [min_eq_right (by linarith), max_eq_right (show x0 ≤ b * dx by linarith), max_eq_right (by linarith)]; ring

/-! ## One segment -/

def StepOK (u : ℚ) (p q : ℚ × ℚ) : Prop := p.1 ≤ q.1 ∧ p.2 ≤ q.2 ∧ q.2 - p.2 ≤ u * (q.1 - p.1)

theorem cell_iff {dt t : ℚ} (hdt : 0 < dt) (i : ℕ) :
    (i : ℚ) * dt ≤ t ∧ t < ((i : ℚ) + 1) * dt ↔ (i : ℤ) = ⌊t / dt⌋ := by
  rw [floor_cell hdt]; push_cast; rfl

theorem Cells.segment_ok {C : Cells} (h : C.Good) (nt nx : ℕ) {dt dx : ℚ} (hdt : 0 < dt) (hdx : 0 < dx)
    (name : String) {u : ℚ} {p q : ℚ × ℚ} (hp : 0 ≤ p.1 ∧ 0 ≤ p.2) (hs : StepOK u p q) :
    ∃ C', C.segment nt nx dt dx name p q = .ok C' ∧
      C.Plus C' nt nx (fun i j => segDist dt dx i j p q) (fun i j => segTime dt dx i j p q) := by
  obtain ⟨ht, hx, hu⟩ := hs
  have htt : 0 ≤ ⌊p.1 / dt⌋ := Int.floor_nonneg.2 (div_nonneg hp.1 hdt.le)
  have hxx : 0 ≤ ⌊p.2 / dx⌋ := Int.floor_nonneg.2 (div_nonneg hp.2 hdx.le)
  have hmono : ⌊p.2 / dx⌋ ≤ ⌊q.2 / dx⌋ := Int.floor_mono (div_le_div_of_nonneg_right hx hdx.le)
  have hcast : ∀ j : ℕ, overlap p.2 q.2 ((j : ℚ) * dx) (((j : ℚ) + 1) * dx) =
      overlap p.2 q.2 (((j : ℤ) : ℚ) * dx) ((((j : ℤ) : ℚ) + 1) * dx) := by intro j; push_cast; rfl
  unfold Cells.segment
  dsimp only
  by_cases hlt : p.2 < q.2
  · have ht' : p.1 < q.1 := by
      rcases lt_or_eq_of_le ht with h | h
      · exact h
      · rw [h] at hu; simp at hu; linarith
    have hv0 : 0 < (q.2 - p.2) / (q.1 - p.1) := div_pos (by linarith) (by linarith)
    rw [if_pos (show q.1 - p.1 ≠ 0 by linarith), if_pos hv0]
    have hdiv : ∀ y : ℚ, y * (q.1 - p.1) / (q.2 - p.2) = y / ((q.2 - p.2) / (q.1 - p.1)) := by
      intro y
      have h1 : q.2 - p.2 ≠ 0 := by linarith
      have h2 : q.1 - p.1 ≠ 0 := by linarith
      field_simp
    by_cases hin : ⌊p.1 / dt⌋ < nt ∧ ⌊p.2 / dx⌋ < nx
    · rw [if_pos hin]
      by_cases hsame : ⌊p.2 / dx⌋ = ⌊q.2 / dx⌋
      · rw [if_pos hsame]
        obtain ⟨C', hC, hP⟩ := Cells.add_ok h htt hin.1 hxx hin.2 name (q.2 - p.2) (q.1 - p.1)
        refine ⟨C', hC, hP.congr ?_ ?_⟩
        · intro i j _ _
          unfold segDist
          simp only [cell_iff hdt, hcast, overlap_same hdx hx hsame]
          by_cases h1 : (i : ℤ) = ⌊p.1 / dt⌋
          · simp only [h1, true_and, if_true]
          · simp only [h1, false_and, if_false]
        · intro i j _ _
          unfold segTime
          simp only [cell_iff hdt, hcast, overlap_same hdx hx hsame, hlt, if_true]
          by_cases h1 : (i : ℤ) = ⌊p.1 / dt⌋
          · by_cases h2 : (j : ℤ) = ⌊p.2 / dx⌋
            · simp only [h1, h2, true_and, if_true]
              rw [mul_comm, mul_div_assoc, div_self (by linarith), mul_one]
            · simp only [h1, h2, and_false, if_true, if_false]; simp
          · simp only [h1, false_and, if_false]
      · rw [if_neg hsame]
        have hlt' : ⌊p.2 / dx⌋ < ⌊q.2 / dx⌋ := lt_of_le_of_ne hmono hsame
        obtain ⟨C', hC, hP⟩ := Cells.cross_ok h (dx := dx) (nx := nx) htt hin.1 hxx name ((q.2 - p.2) / (q.1 - p.1))
          (dx - pyMod p.2 dx) (pyMod q.2 dx) (⌊q.2 / dx⌋ - ⌊p.2 / dx⌋ + 1).toNat
          (⌊q.2 / dx⌋ - ⌊p.2 / dx⌋ + 1).toNat
        refine ⟨C', hC, hP.congr ?_ ?_⟩
        · intro i j _ _
          unfold segDist
          simp only [cell_iff hdt, hcast, overlap_cross hdx hlt']
          by_cases h1 : (i : ℤ) = ⌊p.1 / dt⌋
          · simp only [h1, true_and, if_true]
          · simp only [h1, false_and, if_false]
        · intro i j _ _
          unfold segTime
          simp only [cell_iff hdt, hcast, overlap_cross hdx hlt', hlt, if_true, hdiv]
          by_cases h1 : (i : ℤ) = ⌊p.1 / dt⌋
          · simp only [h1, true_and, if_true]
            split
            · rfl
            · simp
          · simp only [h1, false_and, if_false]
    · rw [if_neg hin]
      have hz : ∀ i j : ℕ, i < nt → j < nx → (i : ℤ) = ⌊p.1 / dt⌋ →
          overlap p.2 q.2 ((j : ℚ) * dx) (((j : ℚ) + 1) * dx) = 0 := by
        intro i j hi hj e
        have hxn : ¬ ⌊p.2 / dx⌋ < nx := fun h => hin ⟨by omega, h⟩
        have := cast_step hdx (show (j : ℤ) + 1 ≤ ⌊p.2 / dx⌋ by omega)
        have f0 := floor_bounds (x := p.2) hdx
        push_cast at this
        exact overlap_zero (.inl (by linarith))
      refine ⟨C, rfl, (Cells.Plus.zero h nt nx).congr ?_ ?_⟩
      · intro i j hi hj
        unfold segDist
        simp only [cell_iff hdt]
        split
        · rename_i e; rw [hz i j hi hj e]
        · rfl
      · intro i j hi hj
        unfold segTime
        simp only [cell_iff hdt]
        split
        · rename_i e; rw [hz i j hi hj e]; simp
        · rfl
  · have hxe : q.2 = p.2 := le_antisymm (not_lt.1 hlt) hx
    have hv0 : ¬ 0 < (if q.1 - p.1 ≠ 0 then (q.2 - p.2) / (q.1 - p.1) else 0) := by
      rw [hxe]; simp
    rw [if_neg hv0]
    by_cases hin : ⌊p.1 / dt⌋ < nt ∧ ⌊p.2 / dx⌋ < nx
    · rw [if_pos hin]
      obtain ⟨C', hC, hP⟩ := Cells.add_ok h htt hin.1 hxx hin.2 name 0 (q.1 - p.1)
      refine ⟨C', hC, hP.congr ?_ ?_⟩
      · intro i j _ _
        unfold segDist
        rw [hxe]
        simp only [ite_self]
        symm
        split
        · unfold overlap
          refine max_eq_left ?_
          have h1 := min_le_left p.2 (((j : ℚ) + 1) * dx)
          have h2 := le_max_left p.2 ((j : ℚ) * dx)
          linarith
        · rfl
      · intro i j _ _
        unfold segTime
        simp only [cell_iff hdt, hlt, if_false, cell_iff hdx]
        by_cases h1 : (i : ℤ) = ⌊p.1 / dt⌋
        · by_cases h2 : (j : ℤ) = ⌊p.2 / dx⌋
          · simp only [h1, h2, true_and, if_true]
          · simp only [h1, h2, and_false, if_true, if_false]
        · simp only [h1, false_and, if_false]
    · rw [if_neg hin]
      refine ⟨C, rfl, (Cells.Plus.zero h nt nx).congr ?_ ?_⟩
      · intro i j hi hj
        unfold segDist
        rw [hxe]
        symm
        split
        · unfold overlap
          refine max_eq_left ?_
          have h1 := min_le_left p.2 (((j : ℚ) + 1) * dx)
          have h2 := le_max_left p.2 ((j : ℚ) * dx)
          linarith
        · rfl
      · intro i j hi hj
        unfold segTime
        simp only [cell_iff hdt, hlt, if_false, cell_iff hdx]
        by_cases h1 : (i : ℤ) = ⌊p.1 / dt⌋
        · have h2 : ¬ (j : ℤ) = ⌊p.2 / dx⌋ := fun h2 => hin ⟨by omega, by omega⟩
          simp only [h1, h2, if_true, if_false]
        · simp only [h1, if_false]

/-! ## Whole trajectories -/

theorem Cells.traj_ok {C : Cells} (h : C.Good) (nt nx : ℕ) {dt dx : ℚ} (hdt : 0 < dt) (hdx : 0 < dx)
    {u len : ℚ} {τ : Traj} (hg : GoodTraj u len τ.pts) :
    ∃ C', C.traj nt nx dt dx τ = .ok C' ∧ C.Plus C' nt nx
      (fun i j => alongPairs (segDist dt dx i j) τ.pts) (fun i j => alongPairs (segTime dt dx i j) τ.pts) := by
  obtain ⟨name, ps⟩ := τ
  unfold Cells.traj
  dsimp only at hg ⊢
  induction ps generalizing C with
  | nil => exact ⟨C, rfl, (Cells.Plus.zero h nt nx).congr (fun _ _ _ _ => rfl) (fun _ _ _ _ => rfl)⟩
  | cons p ps ih =>
    cases ps with
    | nil => exact ⟨C, rfl, (Cells.Plus.zero h nt nx).congr (fun _ _ _ _ => rfl) (fun _ _ _ _ => rfl)⟩
    | cons q r =>
      obtain ⟨hpt, hst⟩ := hg
      have hst' := hst
      rw [List.isChain_cons_cons] at hst'
      have hp := hpt p List.mem_cons_self
      obtain ⟨C1, h1, p1⟩ := Cells.segment_ok h nt nx hdt hdx name (u := u) ⟨hp.1, hp.2.1⟩ hst'.1
      obtain ⟨C2, h2, p2⟩ := ih p1.good ⟨fun x hx => hpt x (List.mem_cons_of_mem _ hx), hst'.2⟩
      refine ⟨C2, ?_, (p1.trans p2).congr (fun _ _ _ _ => rfl) (fun _ _ _ _ => rfl)⟩
      show ((p, q) :: (q :: r).zip r).foldlM _ C = _
      rw [List.foldlM_cons]
      dsimp only
      rw [h1]
      exact h2

theorem Cells.trajs_ok {C : Cells} (h : C.Good) (nt nx : ℕ) {dt dx : ℚ} (hdt : 0 < dt) (hdx : 0 < dx)
    {u len : ℚ} (ts : List Traj) (hg : ∀ τ ∈ ts, GoodTraj u len τ.pts) :
    ∃ C', ts.foldlM (Cells.traj nt nx dt dx) C = .ok C' ∧ C.Plus C' nt nx
      (fun i j => (ts.map fun τ => alongPairs (segDist dt dx i j) τ.pts).sum)
      (fun i j => (ts.map fun τ => alongPairs (segTime dt dx i j) τ.pts).sum) := by
  induction ts generalizing C with
  | nil => exact ⟨C, rfl, (Cells.Plus.zero h nt nx).congr (fun _ _ _ _ => rfl) (fun _ _ _ _ => rfl)⟩
  | cons τ ts ih =>
    obtain ⟨C1, h1, p1⟩ := Cells.traj_ok h nt nx hdt hdx (hg τ List.mem_cons_self)
    obtain ⟨C2, h2, p2⟩ := ih p1.good (fun σ hσ => hg σ (List.mem_cons_of_mem _ hσ))
    refine ⟨C2, ?_, (p1.trans p2).congr (fun _ _ _ _ => ?_) (fun _ _ _ _ => ?_)⟩
    · rw [List.foldlM_cons, h1]; exact h2
    · rw [List.map_cons, List.sum_cons]
    · rw [List.map_cons, List.sum_cons]

theorem Cells.good_empty : Cells.empty.Good := fun _ _ => ⟨DDict.good_empty.1, DDict.good_empty.1⟩

/-! ## Bounds -/

theorem overlap_nonneg (a b c d : ℚ) : 0 ≤ overlap a b c d := le_max_left _ _

theorem segDist_nonneg (dt dx : ℚ) (i j : ℕ) (p q : ℚ × ℚ) : 0 ≤ segDist dt dx i j p q := by
  unfold segDist; split
  · exact overlap_nonneg _ _ _ _
  · exact le_rfl

theorem segTime_nonneg {dt dx u : ℚ} (i j : ℕ) {p q : ℚ × ℚ} (h : StepOK u p q) :
    0 ≤ segTime dt dx i j p q := by
  obtain ⟨h1, h2, h3⟩ := h
  unfold segTime; split
  · split
    · exact div_nonneg (mul_nonneg (overlap_nonneg _ _ _ _) (by linarith)) (by linarith)
    · split
      · linarith
      · exact le_rfl
  · exact le_rfl

theorem segDist_le {dt dx u : ℚ} (hu : 0 ≤ u) (i j : ℕ) {p q : ℚ × ℚ} (h : StepOK u p q) :
    segDist dt dx i j p q ≤ u * segTime dt dx i j p q := by
  have h0 := segTime_nonneg (dt := dt) (dx := dx) i j h
  obtain ⟨h1, h2, h3⟩ := h
  unfold segDist; unfold segTime at h0 ⊢
  split
  · rename_i hi
    rw [if_pos hi] at h0
    by_cases hlt : p.2 < q.2
    · rw [if_pos hlt]
      have ho := overlap_nonneg p.2 q.2 ((j : ℚ) * dx) (((j : ℚ) + 1) * dx)
      generalize overlap p.2 q.2 ((j : ℚ) * dx) (((j : ℚ) + 1) * dx) = o at *
      rw [← mul_div_assoc, le_div_iff₀ (by linarith)]
      nlinarith
    · rw [if_neg hlt] at h0 ⊢
      have hxe : q.2 = p.2 := le_antisymm (not_lt.1 hlt) h2
      have : overlap p.2 q.2 ((j : ℚ) * dx) (((j : ℚ) + 1) * dx) = 0 := by
        rw [hxe]; unfold overlap
        refine max_eq_left ?_
        have h1 := min_le_left p.2 (((j : ℚ) + 1) * dx)
        have h2 := le_max_left p.2 ((j : ℚ) * dx)
        linarith
      rw [this]; exact mul_nonneg hu h0
  · simp

theorem alongPairs_nonneg {f : ℚ × ℚ → ℚ × ℚ → ℚ} {R : ℚ × ℚ → ℚ × ℚ → Prop}
    (hf : ∀ p q, R p q → 0 ≤ f p q) (ps : List (ℚ × ℚ)) (h : ps.IsChain R) : 0 ≤ alongPairs f ps := by
  induction ps with
  | nil => exact le_rfl
  | cons p ps ih =>
    cases ps with
    | nil => exact le_rfl
    | cons q r =>
      rw [List.isChain_cons_cons] at h
      exact add_nonneg (hf p q h.1) (ih h.2)

theorem alongPairs_le {f g : ℚ × ℚ → ℚ × ℚ → ℚ} {R : ℚ × ℚ → ℚ × ℚ → Prop} {u : ℚ}
    (hf : ∀ p q, R p q → f p q ≤ u * g p q) (ps : List (ℚ × ℚ)) (h : ps.IsChain R) :
    alongPairs f ps ≤ u * alongPairs g ps := by
  induction ps with
  | nil => simp [alongPairs]
  | cons p ps ih =>
    cases ps with
    | nil => simp [alongPairs]
    | cons q r =>
      rw [List.isChain_cons_cons] at h
      have h1 := hf p q h.1
      have h2 := ih h.2
      unfold alongPairs
      rw [mul_add]; linarith

/-! ## Totals -/

theorem overlap_add {a b c d e : ℚ} (hab : a ≤ b) (h1 : c ≤ d) (h2 : d ≤ e) :
    overlap a b c d + overlap a b d e = overlap a b c e := by
  unfold overlap
  simp only [max_def, min_def]
  split_ifs <;> linarith

theorem overlap_sum {a b dx : ℚ} (hab : a ≤ b) (hdx : 0 < dx) (n : ℕ) :
    ((List.range n).map fun j : ℕ => overlap a b (j * dx) ((j + 1) * dx)).sum = overlap a b 0 (n * dx) := by
  induction n with
  | zero => simp [overlap]
  | succ n ih =>
    rw [List.range_succ, List.map_append, List.sum_append, ih, List.map_singleton, List.sum_singleton,
      overlap_add hab (by positivity) (by nlinarith)]
    push_cast; ring_nf

theorem sum_one {n k : ℕ} (hk : k < n) (f : ℕ → ℚ) (q : ℚ) (hf : ∀ i, f i = if i = k then q else 0) :
    ((List.range n).map f).sum = q := by
  induction n with
  | zero => omega
  | succ n ih =>
    rw [List.range_succ, List.map_append, List.sum_append, List.map_singleton, List.sum_singleton, hf n]
    by_cases h : n = k
    · subst h
      have : ((List.range n).map f).sum = 0 := by
        rw [List.map_congr_left (g := fun _ => (0 : ℚ))]
        · simp
        · intro i hi; rw [hf i, if_neg (by have := List.mem_range.1 hi; omega)]
      rw [this, if_pos rfl, zero_add]
    · rw [ih (by omega), if_neg h, add_zero]

end UX
