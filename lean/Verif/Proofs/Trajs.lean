import Verif.Proofs.Edie
import Verif.Proofs.Rows
import Mathlib.Tactic.FieldSimp

/-! # Trajectories read from the logs, and the traffic states computed from them -/

namespace UX
open World

/-! ## Matrices -/

structure EdieOK (u dt dx : ℚ) (deltan : ℕ) (ts : List Traj) (m : EdieMats) : Prop where
  dn : ∀ i j, i < m.nt → j < m.nx →
    m.dn i j = deltan * (ts.map fun τ => alongPairs (segDist dt dx i j) τ.pts).sum
  tn : ∀ i j, i < m.nt → j < m.nx →
    m.tn i j = deltan * (ts.map fun τ => alongPairs (segTime dt dx i j) τ.pts).sum
  k : ∀ i j, m.k i j = m.tn i j / dt / dx
  q : ∀ i j, m.q i j = m.dn i j / dt / dx
  v : ∀ i j, m.v i j = if m.k i j = 0 ∧ m.q i j = 0 then u else m.q i j / m.k i j

theorem edieMats_ok {u len tmax dt dx : ℚ} (hdt : 0 < dt) (hdx : 0 < dx) (deltan : ℕ) {ts : List Traj}
    (hg : ∀ τ ∈ ts, GoodTraj u len τ.pts) :
    ∃ m, edieMats u len tmax dt dx deltan ts = .ok m ∧ m.nt = (pyInt (tmax / dt)).toNat ∧
      m.nx = (pyInt (len / dx)).toNat ∧ EdieOK u dt dx deltan ts m := by
  obtain ⟨C, hC, hP⟩ := Cells.trajs_ok Cells.good_empty (pyInt (tmax / dt)).toNat (pyInt (len / dx)).toNat
    hdt hdx ts hg
  unfold edieMats
  dsimp only
  rw [hC]
  refine ⟨_, rfl, rfl, rfl, ?_, ?_, fun _ _ => rfl, fun _ _ => rfl, fun _ _ => rfl⟩
  · intro i j hi hj
    show sumValues deltan (C.dn i j) = _
    rw [sumValues_eq, hP.dn i j hi hj]
    show _ * ((DDict.empty 0).total + _) = _
    rw [DDict.good_empty.2, zero_add]
  · intro i j hi hj
    show sumValues deltan (C.tn i j) = _
    rw [sumValues_eq, hP.tn i j hi hj]
    show _ * ((DDict.empty 0).total + _) = _
    rw [DDict.good_empty.2, zero_add]

theorem sum_map_nonneg {α : Type} (f : α → ℚ) (l : List α) (h : ∀ a ∈ l, 0 ≤ f a) : 0 ≤ (l.map f).sum := by
  induction l with
  | nil => simp
  | cons a l ih =>
    rw [List.map_cons, List.sum_cons]
    exact add_nonneg (h a List.mem_cons_self) (ih fun b hb => h b (List.mem_cons_of_mem _ hb))

theorem sum_map_le {α : Type} (f g : α → ℚ) (u : ℚ) (l : List α) (h : ∀ a ∈ l, f a ≤ u * g a) :
    (l.map f).sum ≤ u * (l.map g).sum := by
  induction l with
  | nil => simp
  | cons a l ih =>
    rw [List.map_cons, List.sum_cons, List.map_cons, List.sum_cons, mul_add]
    exact add_le_add (h a List.mem_cons_self) (ih fun b hb => h b (List.mem_cons_of_mem _ hb))

theorem EdieOK.bounds {u len dt dx : ℚ} {deltan : ℕ} {ts : List Traj} {m : EdieMats}
    (h : EdieOK u dt dx deltan ts m) (hu : 0 ≤ u) (hdt : 0 < dt) (hdx : 0 < dx)
    (hg : ∀ τ ∈ ts, GoodTraj u len τ.pts) {i j : ℕ} (hi : i < m.nt) (hj : j < m.nx) :
    0 ≤ m.k i j ∧ 0 ≤ m.q i j ∧ m.q i j ≤ u * m.k i j ∧ m.q i j = m.k i j * m.v i j ∧
      0 ≤ m.v i j ∧ m.v i j ≤ u := by
  have d0 : 0 ≤ (ts.map fun τ => alongPairs (segDist dt dx i j) τ.pts).sum :=
    sum_map_nonneg _ _ fun τ hτ => alongPairs_nonneg (fun p q _ => segDist_nonneg dt dx i j p q) _ (hg τ hτ).step
  have t0 : 0 ≤ (ts.map fun τ => alongPairs (segTime dt dx i j) τ.pts).sum :=
    sum_map_nonneg _ _ fun τ hτ => alongPairs_nonneg (fun p q h => segTime_nonneg i j h) _ (hg τ hτ).step
  have dt' : (ts.map fun τ => alongPairs (segDist dt dx i j) τ.pts).sum ≤
      u * (ts.map fun τ => alongPairs (segTime dt dx i j) τ.pts).sum :=
    sum_map_le _ _ _ _ fun τ hτ => alongPairs_le (fun p q h => segDist_le hu i j h) _ (hg τ hτ).step
  have hn : (0 : ℚ) ≤ deltan := by positivity
  have k0 : 0 ≤ m.k i j := by rw [h.k, h.tn i j hi hj]; positivity
  have q0 : 0 ≤ m.q i j := by rw [h.q, h.dn i j hi hj]; positivity
  have qk : m.q i j ≤ u * m.k i j := by
    rw [h.k, h.q, h.tn i j hi hj, h.dn i j hi hj, ← mul_div_assoc, ← mul_div_assoc]
    refine div_le_div_of_nonneg_right (div_le_div_of_nonneg_right ?_ hdt.le) hdx.le
    have := mul_le_mul_of_nonneg_left dt' hn
    linarith
  have hv := h.v i j
  refine ⟨k0, q0, qk, ?_⟩
  by_cases hk : m.k i j = 0
  · have hq : m.q i j = 0 := by rw [hk, mul_zero] at qk; exact le_antisymm qk q0
    rw [if_pos ⟨hk, hq⟩] at hv
    rw [hv, hk, hq]; simp [hu]
  · rw [if_neg (fun h => hk h.1)] at hv
    have kp : 0 < m.k i j := lt_of_le_of_ne k0 (Ne.symm hk)
    rw [hv]
    refine ⟨by field_simp, div_nonneg q0 k0, ?_⟩
    rw [div_le_iff₀ kp]; exact qk

/-! ## Total distance -/

theorem sum_swap_add {α : Type} (f g : α → ℚ) (l : List α) :
    (l.map fun a => f a + g a).sum = (l.map f).sum + (l.map g).sum := by
  induction l with
  | nil => simp
  | cons a l ih => simp only [List.map_cons, List.sum_cons, ih]; ring

theorem sum_mul_left (c : ℚ) {α : Type} (f : α → ℚ) (l : List α) :
    (l.map fun a => c * f a).sum = c * (l.map f).sum := by
  induction l with
  | nil => simp
  | cons a l ih => simp only [List.map_cons, List.sum_cons, ih]; ring

theorem cellSum_add (nt nx : ℕ) (f g : ℕ → ℕ → ℚ) :
    cellSum nt nx (fun i j => f i j + g i j) = cellSum nt nx f + cellSum nt nx g := by
  unfold cellSum; simp only [sum_swap_add]

theorem cellSum_zero (nt nx : ℕ) : cellSum nt nx (fun _ _ => 0) = 0 := by
  unfold cellSum; simp

theorem cellSum_congr {nt nx : ℕ} {f g : ℕ → ℕ → ℚ} (h : ∀ i j, i < nt → j < nx → f i j = g i j) :
    cellSum nt nx f = cellSum nt nx g := by
  unfold cellSum
  congr 1
  refine List.map_congr_left fun i hi => ?_
  congr 1
  exact List.map_congr_left fun j hj => h i j (List.mem_range.1 hi) (List.mem_range.1 hj)

theorem cellSum_mul (c : ℚ) (nt nx : ℕ) (f : ℕ → ℕ → ℚ) :
    cellSum nt nx (fun i j => c * f i j) = c * cellSum nt nx f := by
  unfold cellSum; simp only [sum_mul_left]

theorem cellSum_list {α : Type} (nt nx : ℕ) (f : α → ℕ → ℕ → ℚ) (l : List α) :
    cellSum nt nx (fun i j => (l.map fun a => f a i j).sum) = (l.map fun a => cellSum nt nx (f a)).sum := by
  induction l with
  | nil => simp [cellSum_zero]
  | cons a l ih => simp only [List.map_cons, List.sum_cons, cellSum_add, ih]

theorem cellSum_segDist {nt nx : ℕ} {dt dx u len : ℚ} (hdt : 0 < dt) (hdx : 0 < dx) (hnx : nx * dx = len)
    {p q : ℚ × ℚ} (hp : 0 ≤ p.1 ∧ 0 ≤ p.2 ∧ p.2 ≤ len) (hq : q.2 ≤ len) (hs : StepOK u p q)
    (ht : p.1 < nt * dt) : cellSum nt nx (fun i j => segDist dt dx i j p q) = q.2 - p.2 := by
  unfold cellSum
  have hfl : 0 ≤ ⌊p.1 / dt⌋ := Int.floor_nonneg.2 (div_nonneg hp.1 hdt.le)
  have hlt : ⌊p.1 / dt⌋ < nt := by
    rw [Int.floor_lt, div_lt_iff₀ hdt]; exact_mod_cast ht
  have hk : ⌊p.1 / dt⌋.toNat < nt := by omega
  refine sum_one hk _ _ fun i => ?_
  unfold segDist
  simp only [cell_iff hdt]
  by_cases e : (i : ℤ) = ⌊p.1 / dt⌋
  · rw [if_pos (by omega)]
    simp only [e, if_true]
    rw [overlap_sum hs.2.1 hdx, hnx]
    unfold overlap
    rw [min_eq_left hq, max_eq_left hp.2.1, max_eq_right (by have := hs.2.1; linarith)]
  · rw [if_neg (by omega)]
    simp only [e, if_false]
    simp

theorem cellSum_traj {nt nx : ℕ} {dt dx u len : ℚ} (hdt : 0 < dt) (hdx : 0 < dx) (hnx : nx * dx = len)
    (ps : List (ℚ × ℚ)) (hg : GoodTraj u len ps) (ht : ∀ p ∈ ps, p.1 < nt * dt) :
    cellSum nt nx (fun i j => alongPairs (segDist dt dx i j) ps) = covered ps := by
  induction ps with
  | nil => exact cellSum_zero nt nx
  | cons p ps ih =>
    cases ps with
    | nil =>
      show cellSum nt nx (fun _ _ => 0) = p.2 - p.2
      rw [cellSum_zero, sub_self]
    | cons q r =>
      obtain ⟨hpt, hst⟩ := hg
      rw [List.isChain_cons_cons] at hst
      have hq := hpt q (List.mem_cons_of_mem _ List.mem_cons_self)
      have e1 := cellSum_segDist hdt hdx hnx (hpt p List.mem_cons_self) hq.2.2 hst.1 (ht p List.mem_cons_self)
      have e2 := ih ⟨fun x hx => hpt x (List.mem_cons_of_mem _ hx), hst.2⟩
        (fun x hx => ht x (List.mem_cons_of_mem _ hx))
      show cellSum nt nx (fun i j => segDist dt dx i j p q + alongPairs (segDist dt dx i j) (q :: r)) = _
      rw [cellSum_add, e1, e2]
      show q.2 - p.2 + (((q :: r).getLast (List.cons_ne_nil _ _)).2 - q.2) =
        ((p :: q :: r).getLast (List.cons_ne_nil _ _)).2 - p.2
      rw [List.getLast_cons (List.cons_ne_nil q r)]
      ring

theorem EdieOK.total {u len dt dx : ℚ} {deltan : ℕ} {ts : List Traj} {m : EdieMats}
    (h : EdieOK u dt dx deltan ts m) (hdt : 0 < dt) (hdx : 0 < dx) (hnx : m.nx * dx = len)
    (hg : ∀ τ ∈ ts, GoodTraj u len τ.pts) (ht : ∀ τ ∈ ts, ∀ p ∈ τ.pts, p.1 < m.nt * dt) :
    cellSum m.nt m.nx m.dn = deltan * (ts.map fun τ => covered τ.pts).sum := by
  rw [cellSum_congr h.dn, cellSum_mul, cellSum_list]
  congr 2
  exact List.map_congr_left fun τ hτ => cellSum_traj hdt hdx hnx _ (hg τ hτ) (ht τ hτ)

/-! ## Reading the logs -/

theorem runs_other {l : LinkId} {r : LogRow} (h : r.link ≠ some l) (rest : List LogRow) :
    runs l (r :: rest) = runs l rest := by
  cases rest with
  | nil => simp [runs, h]
  | cons r' rest => simp [runs, h]

theorem runs_fresh {l : LinkId} {r : LogRow} (h : r.link = some l) {rest : List LogRow}
    (hr : ∀ r' ∈ rest.head?, r'.link ≠ some l) :
    runs l (r :: rest) = [(r.t, r.x)] :: runs l rest := by
  cases rest with
  | nil => simp [runs, h]
  | cons r' rest =>
    have h' : r'.link ≠ some l := hr r' rfl
    simp only [runs, h, h', if_true, if_false]
    cases runs l (r' :: rest) <;> rfl

theorem runs_again {l : LinkId} {r r' : LogRow} (h : r.link = some l) (h' : r'.link = some l)
    (rest : List LogRow) : ∃ run more, runs l (r' :: rest) = ((r'.t, r'.x) :: run) :: more ∧
      runs l (r :: r' :: rest) = ((r.t, r.x) :: (r'.t, r'.x) :: run) :: more := by
  induction rest generalizing r r' with
  | nil => exact ⟨[], [], by simp [runs, h'], by simp [runs, h, h']⟩
  | cons r'' rest ih =>
    by_cases h'' : r''.link = some l
    · obtain ⟨run, more, -, e2⟩ := ih h' h''
      refine ⟨_, _, e2, ?_⟩
      rw [runs.eq_3, if_pos h, e2]; simp [h']
    · have e := runs_fresh h' (rest := r'' :: rest) (by simpa using h'')
      refine ⟨_, _, e, ?_⟩
      rw [runs.eq_3, if_pos h, e]; simp [h']

theorem trajRows (name : String) (S0 : TrajAcc) (h0 : S0.old = none) (lg : List LogRow) :
    ∃ S, lg.reverse.foldlM (trajRow name) S0 = .ok S ∧
      S.old = (lg.filter (·.link.isSome)).head?.bind (·.link) ∧
      ∀ l, S.trajs l = (runs l (lg.filter (·.link.isSome))).map (⟨name, ·⟩) ++ S0.trajs l := by
  induction lg with
  | nil => exact ⟨S0, rfl, h0, fun l => rfl⟩
  | cons r lg ih =>
    obtain ⟨S, hS, ho, ht⟩ := ih
    rw [List.reverse_cons, List.foldlM_append, hS]
    show ∃ S', [r].foldlM (trajRow name) S = .ok S' ∧ _
    rw [List.foldlM_cons]
    cases hl : r.link with
    | none =>
      rw [List.filter_cons_of_neg (by simp [hl])]
      exact ⟨S, by unfold trajRow; rw [hl]; rfl, ho, ht⟩
    | some l =>
      rw [List.filter_cons_of_pos (by simp [hl])]
      generalize lg.filter (·.link.isSome) = rows at *
      by_cases hold : S.old = some l
      · cases rows with
        | nil => rw [ho] at hold; cases hold
        | cons r' rest =>
          have hl' : r'.link = some l := by rw [ho] at hold; exact hold
          obtain ⟨run, more, e1, e2⟩ := runs_again hl hl' rest
          have htl := ht l
          rw [e1] at htl
          refine ⟨_, by unfold trajRow; simp only [hl]; rw [if_neg (by simp [hold]), htl]; rfl, by simp [hl], ?_⟩
          intro k
          dsimp only
          by_cases hk : k = l
          · subst hk; rw [upd_same, e2]; rfl
          · rw [upd_ne _ _ hk, ht k, runs_other (r := r) (by rw [hl]; exact fun e => hk (Option.some.inj e).symm)]
      · refine ⟨_, by unfold trajRow; simp only [hl]; rw [if_pos (by simp [hold])]; rfl, by simp [hl], ?_⟩
        intro k
        dsimp only
        by_cases hk : k = l
        · subst hk
          have hr : ∀ r' ∈ rows.head?, r'.link ≠ some k := by
            intro r' hr' e
            rw [Option.mem_def] at hr'
            rw [ho, hr'] at hold
            exact hold e
          rw [upd_same, runs_fresh hl hr, ht k]; rfl
        · rw [upd_ne _ _ hk, ht k, runs_other (r := r) (by rw [hl]; exact fun e => hk (Option.some.inj e).symm)]

theorem rawTrajs_ok (W : World) : ∃ ts, W.rawTrajs = .ok ts ∧
    ∀ l, ts l = (List.range W.nVeh).flatMap fun v => (W.visits l v).map (⟨W.V.name v, ·⟩) := by
  have key : ∀ n, ∃ S, (List.range n).foldlM (trajVeh W) ⟨none, fun _ => []⟩ = .ok S ∧
      ∀ l, ((S.trajs l).reverse.map fun τ => { τ with pts := τ.pts.reverse }) =
        (List.range n).flatMap fun v => (W.visits l v).map (⟨W.V.name v, ·⟩) := by
    intro n
    induction n with
    | zero => exact ⟨_, rfl, fun l => rfl⟩
    | succ n ih =>
      obtain ⟨S, hS, ht⟩ := ih
      rw [List.range_succ, List.foldlM_append, hS]
      obtain ⟨S', hS', -, ht'⟩ := trajRows (W.V.name n) { S with old := none } rfl (W.V.log n)
      refine ⟨S', ?_, fun l => ?_⟩
      · show [n].foldlM (trajVeh W) S = _
        rw [List.foldlM_cons]
        show (do let S1 ← trajVeh W S n; [].foldlM (trajVeh W) S1) = _
        unfold trajVeh
        rw [hS']; rfl
      · rw [ht' l, List.reverse_append, List.map_append, ht l, List.flatMap_append]
        congr 1
        unfold World.visits
        simp [List.map_reverse, Function.comp_def]
  obtain ⟨S, hS, ht⟩ := key W.nVeh
  unfold World.rawTrajs
  rw [hS]
  exact ⟨_, rfl, ht⟩

/-! ## Completed trajectories -/

theorem completed_eq {u len dt : ℚ} (hu : 0 < u) (hdt : 0 ≤ dt) (ps : List (ℚ × ℚ)) :
    extrapEnd u len dt (extrapStart u dt ps) = completed u len dt ps := by
  cases ps with
  | nil => rfl
  | cons p ps =>
    have hs : (p.2 ≠ 0 ∧ p.2 / u > dt * (1 / 100)) ↔ dt / 100 < p.2 / u := by
      constructor
      · rintro ⟨-, h⟩; linarith
      · intro h
        refine ⟨fun e => ?_, by linarith⟩
        rw [e, zero_div] at h; linarith
    have he : ∀ x : ℚ, ((len - u * dt ≤ x ∧ x < len) ∧ (len - x) / u > dt * (1 / 100)) ↔
        (x < len ∧ (len - x) / u ≤ dt ∧ dt / 100 < (len - x) / u) := by
      intro x
      rw [div_le_iff₀ hu]
      constructor
      · rintro ⟨⟨h1, h2⟩, h3⟩; exact ⟨h2, by linarith, by linarith⟩
      · rintro ⟨h1, h2, h3⟩; exact ⟨⟨by linarith, h1⟩, by linarith⟩
    have hstart : extrapStart u dt (p :: ps) =
        (if dt / 100 < p.2 / u then [(p.1 - p.2 / u, 0)] else []) ++ (p :: ps) := by
      show (if p.2 ≠ 0 ∧ p.2 / u > dt * (1 / 100) then (p.1 - p.2 / u, 0) :: p :: ps else p :: ps) = _
      simp only [hs]
      split <;> rfl
    have hlast : (extrapStart u dt (p :: ps)).getLast? = (p :: ps).getLast? := by
      rw [hstart]; split
      · rw [List.getLast?_append_of_ne_nil _ (List.cons_ne_nil _ _)]
      · rfl
    unfold extrapEnd completed
    rw [hlast, hstart]
    cases hgl : (p :: ps).getLast? with
    | none => simp at hgl
    | some z =>
      simp only [he, List.head?_cons]
      split
      · rfl
      · rw [List.append_nil]

theorem good_run {u0 : LinkId → ℚ} {W : World} {l : LinkId} (hdt : 0 ≤ W.dt) (rows : List LogRow)
    (hr : ∀ r ∈ rows, r.link = some l → RowOK u0 W l r)
    (hc : rows.IsChain (rowStep u0 W.L.length W.cfg.deltat)) :
    ∀ run ∈ runs l rows, run ≠ [] ∧ (∀ p ∈ run, 0 ≤ p.1 ∧ 0 ≤ p.2 ∧ p.2 ≤ W.L.length l ∧ p.2 ≤ u0 l * p.1) ∧
      run.IsChain (fun q p => p.1 ≤ q.1 ∧ p.2 ≤ q.2 ∧ q.2 - p.2 ≤ u0 l * (q.1 - p.1)) := by
  induction rows with
  | nil => intro run h; simp [runs] at h
  | cons r rows ih =>
    have ih' := ih (fun x hx => hr x (List.mem_cons_of_mem _ hx)) hc.tail
    by_cases hl : r.link = some l
    · have hro := hr r List.mem_cons_self hl
      have hp : 0 ≤ r.t ∧ 0 ≤ r.x ∧ r.x ≤ W.L.length l ∧ r.x ≤ u0 l * r.t := ⟨hro.t, hro.x0, hro.x1, hro.xt⟩
      have hfresh : (∀ r' ∈ rows.head?, r'.link ≠ some l) → ∀ run ∈ runs l (r :: rows), run ≠ [] ∧
          (∀ p ∈ run, 0 ≤ p.1 ∧ 0 ≤ p.2 ∧ p.2 ≤ W.L.length l ∧ p.2 ≤ u0 l * p.1) ∧
          run.IsChain (fun q p => p.1 ≤ q.1 ∧ p.2 ≤ q.2 ∧ q.2 - p.2 ≤ u0 l * (q.1 - p.1)) := by
        intro h run hrun
        rw [runs_fresh hl h] at hrun
        rcases List.mem_cons.1 hrun with rfl | hrun
        · refine ⟨by simp, ?_, List.IsChain.singleton _⟩
          intro p hpm; rw [List.mem_singleton] at hpm; subst hpm; exact hp
        · exact ih' run hrun
      cases rows with
      | nil => exact hfresh (by simp)
      | cons r' rest =>
        by_cases hl' : r'.link = some l
        · obtain ⟨run0, more, e1, e2⟩ := runs_again hl hl' rest
          rw [e1] at ih'
          rw [e2]
          intro run hrun
          rcases List.mem_cons.1 hrun with rfl | hrun
          · have h0 := ih' _ List.mem_cons_self
            rw [List.isChain_cons_cons] at hc
            refine ⟨by simp, ?_, ?_⟩
            · intro p hpm
              rcases List.mem_cons.1 hpm with rfl | hpm
              · exact hp
              · exact h0.2.1 p hpm
            · rw [List.isChain_cons_cons]
              refine ⟨?_, h0.2.2⟩
              have hst := hc.1.same l hl hl'
              have htm := hc.1.time
              have hdt' : 0 ≤ W.cfg.deltat := hdt
              refine ⟨?_, hst.1, ?_⟩
              · show r'.t ≤ r.t; linarith
              · show r.x - r'.x ≤ u0 l * (r.t - r'.t)
                rw [htm]; have := hst.2
                rw [add_sub_cancel_left]; linarith
          · exact ih' run (List.mem_cons_of_mem _ hrun)
        · exact hfresh (by simpa using hl')
    · rw [runs_other hl]; exact ih'

theorem good_completed {u len dt : ℚ} (hu : 0 < u) {ps : List (ℚ × ℚ)}
    (hne : ps ≠ []) (hpt : ∀ p ∈ ps, 0 ≤ p.1 ∧ 0 ≤ p.2 ∧ p.2 ≤ len ∧ p.2 ≤ u * p.1)
    (hc : ps.IsChain (fun p q => p.1 ≤ q.1 ∧ p.2 ≤ q.2 ∧ q.2 - p.2 ≤ u * (q.1 - p.1))) :
    GoodTraj u len (completed u len dt ps) := by
  have hend : GoodTraj u len (ps ++ (match ps.getLast? with
      | some p => if p.2 < len ∧ (len - p.2) / u ≤ dt ∧ dt / 100 < (len - p.2) / u then
          [(p.1 + (len - p.2) / u, len)] else []
      | none => [])) := by
    cases hl : ps.getLast? with
    | none =>
      rw [List.append_nil]
      exact ⟨fun p hp => ⟨(hpt p hp).1, (hpt p hp).2.1, (hpt p hp).2.2.1⟩, hc⟩
    | some z =>
      have hz := hpt z (List.mem_of_getLast? hl)
      dsimp only
      split
      · have hdiv : 0 ≤ (len - z.2) / u := div_nonneg (by linarith) hu.le
        refine ⟨?_, ?_⟩
        · intro p hp
          rcases List.mem_append.1 hp with hp | hp
          · exact ⟨(hpt p hp).1, (hpt p hp).2.1, (hpt p hp).2.2.1⟩
          · rw [List.mem_singleton] at hp; subst hp
            exact ⟨by dsimp only; linarith, by dsimp only; linarith, le_rfl⟩
        · rw [List.isChain_append]
          refine ⟨hc, List.IsChain.singleton _, ?_⟩
          intro a ha b hb
          rw [hl, Option.mem_some_iff] at ha
          rw [List.head?_cons, Option.mem_some_iff] at hb
          subst ha; subst hb
          refine ⟨by dsimp only; linarith, by dsimp only; linarith, ?_⟩
          dsimp only
          rw [add_sub_cancel_left, mul_div_cancel₀ _ hu.ne']
      · rw [List.append_nil]
        exact ⟨fun p hp => ⟨(hpt p hp).1, (hpt p hp).2.1, (hpt p hp).2.2.1⟩, hc⟩
  unfold completed
  rw [List.append_assoc]
  generalize hE : (ps ++ (match ps.getLast? with
      | some p => if p.2 < len ∧ (len - p.2) / u ≤ dt ∧ dt / 100 < (len - p.2) / u then
          [(p.1 + (len - p.2) / u, len)] else []
      | none => [])) = qs at hend
  have hhead : qs.head? = ps.head? := by
    rw [← hE, List.head?_append]
    cases ps with
    | nil => exact absurd rfl hne
    | cons p ps => rfl
  cases hh : ps.head? with
  | none => rw [List.head?_eq_none_iff] at hh; exact absurd hh hne
  | some p =>
    have hp := hpt p (List.mem_of_head? hh)
    dsimp only
    split
    · have hdiv : 0 ≤ p.2 / u := div_nonneg hp.2.1 hu.le
      have hle : p.2 / u ≤ p.1 := by rw [div_le_iff₀ hu]; linarith [hp.2.2.2]
      refine ⟨?_, ?_⟩
      · intro x hx
        rcases List.mem_append.1 hx with hx | hx
        · rw [List.mem_singleton] at hx; subst hx
          exact ⟨by dsimp only; linarith, le_rfl, hp.2.1.trans hp.2.2.1⟩
        · exact hend.pt x hx
      · rw [List.isChain_append]
        refine ⟨List.IsChain.singleton _, hend.step, ?_⟩
        intro a ha b hb
        rw [List.getLast?_singleton, Option.mem_some_iff] at ha
        rw [hhead, hh, Option.mem_some_iff] at hb
        subst ha; subst hb
        refine ⟨by dsimp only; linarith, hp.2.1, ?_⟩
        dsimp only
        rw [sub_zero, sub_sub_cancel, mul_div_cancel₀ _ hu.ne']
    · exact hend

theorem RowsI.visit_good {u0 : LinkId → ℚ} {W : World} (h : RowsI u0 W) (hdt : 0 ≤ W.dt) {l : LinkId}
    {v : VehId} {ps : List (ℚ × ℚ)} (hps : ps ∈ W.visits l v) :
    ps ≠ [] ∧ (∀ p ∈ ps, 0 ≤ p.1 ∧ 0 ≤ p.2 ∧ p.2 ≤ W.L.length l ∧ p.2 ≤ u0 l * p.1) ∧
      ps.IsChain (fun p q => p.1 ≤ q.1 ∧ p.2 ≤ q.2 ∧ q.2 - p.2 ≤ u0 l * (q.1 - p.1)) := by
  unfold World.visits at hps
  rw [List.mem_reverse, List.mem_map] at hps
  obtain ⟨run, hrun, rfl⟩ := hps
  obtain ⟨h1, h2, h3⟩ := good_run hdt _ (fun r hr hl => h.rows v r (List.mem_of_mem_filter hr) l hl)
    (h.chain v) run hrun
  refine ⟨by simpa using h1, fun p hp => h2 p (List.mem_reverse.1 hp), ?_⟩
  rw [List.isChain_reverse]; exact h3


theorem accurateTrajs_ok (W : World) (hdt : 0 ≤ W.dt) : ∃ ts, W.accurateTrajs = .ok ts ∧
    ∀ l, 0 < W.L.u l → ts l = (List.range W.nVeh).flatMap fun v =>
      (W.visits l v).map fun ps => ⟨W.V.name v, completed (W.L.u l) (W.L.length l) W.dt ps⟩ := by
  obtain ⟨ts, hts, ht⟩ := rawTrajs_ok W
  unfold World.accurateTrajs
  rw [hts]
  refine ⟨_, rfl, fun l hl => ?_⟩
  rw [ht l, List.map_flatMap]
  simp only [List.map_map, Function.comp_def, completed_eq hl hdt]

theorem RowsI.traj_good {u0 : LinkId → ℚ} {W : World} (h : RowsI u0 W) (hdt : 0 ≤ W.dt) {l : LinkId}
    (hu : W.L.u l = u0 l) (hu0 : 0 < u0 l) {v : VehId} {ps : List (ℚ × ℚ)} (hps : ps ∈ W.visits l v) :
    GoodTraj (W.L.u l) (W.L.length l) (completed (W.L.u l) (W.L.length l) W.dt ps) := by
  obtain ⟨h1, h2, h3⟩ := h.visit_good hdt hps
  rw [hu]; exact good_completed hu0 h1 h2 h3

/-- Runs that are not the newest stay of the vehicle end near the end of the link. -/
theorem passed_run {u0 len : LinkId → ℚ} {dt : ℚ} {l : LinkId} (rows : List LogRow)
    (hs : ∀ r ∈ rows, r.link.isSome) (hc : rows.IsChain (rowStep u0 len dt)) :
    ∀ run ∈ (if (rows.head?.bind (·.link)) = some l then (runs l rows).tail else runs l rows),
      ∃ p ∈ run.head?, len l - u0 l * dt ≤ p.2 := by
  induction rows with
  | nil => intro run h; simp [runs] at h
  | cons r rows ih =>
    have ih' := ih (fun x hx => hs x (List.mem_cons_of_mem _ hx)) hc.tail
    rw [List.head?_cons, Option.bind_some]
    by_cases hl : r.link = some l
    · rw [if_pos hl]
      cases rows with
      | nil => simp [runs, hl]
      | cons r' rest =>
        rw [List.head?_cons, Option.bind_some] at ih'
        by_cases hl' : r'.link = some l
        · rw [if_pos hl'] at ih'
          obtain ⟨run, more, e1, e2⟩ := runs_again hl hl' rest
          rw [e1] at ih'; rw [e2]; exact ih'
        · rw [if_neg hl'] at ih'
          rw [runs_fresh hl (by simpa using hl')]; exact ih'
    · rw [if_neg hl, runs_other hl]
      cases rows with
      | nil => simp [runs]
      | cons r' rest =>
        rw [List.head?_cons, Option.bind_some] at ih'
        by_cases hl' : r'.link = some l
        · rw [if_pos hl'] at ih'
          have hnew : len l - u0 l * dt ≤ r'.x := by
            rw [List.isChain_cons_cons] at hc
            obtain ⟨l1, e1⟩ := Option.isSome_iff_exists.1 (hs r List.mem_cons_self)
            exact (hc.1.next l l1 hl' e1 (fun e => hl (e ▸ e1))).1
          have hd : ∃ run more, runs l (r' :: rest) = ((r'.t, r'.x) :: run) :: more := by
            cases rest with
            | nil => exact ⟨[], [], by simp [runs, hl']⟩
            | cons r'' rest =>
              by_cases hl'' : r''.link = some l
              · obtain ⟨run, more, -, e2⟩ := runs_again hl' hl'' rest
                exact ⟨_, _, e2⟩
              · exact ⟨_, _, runs_fresh hl' (by simpa using hl'')⟩
          obtain ⟨run0, more, e⟩ := hd
          rw [e] at ih' ⊢
          intro run hrun
          rcases List.mem_cons.1 hrun with rfl | hrun
          · exact ⟨_, rfl, hnew⟩
          · exact ih' run hrun
        · rw [if_neg hl'] at ih'; exact ih'

theorem covered_eq {ps : List (ℚ × ℚ)} {p q : ℚ × ℚ} (hp : ps.head? = some p) (hq : ps.getLast? = some q) :
    covered ps = q.2 - p.2 := by
  cases ps with
  | nil => simp at hp
  | cons a ps =>
    rw [List.head?_cons, Option.some.injEq] at hp
    subst hp
    rw [List.getLast?_eq_some_getLast (List.cons_ne_nil _ _), Option.some.injEq] at hq
    show ((a :: ps).getLast _).2 - a.2 = _
    rw [hq]

theorem completed_covered {u len dt : ℚ} (hu : 0 < u) (hdt : 0 ≤ dt) {ps : List (ℚ × ℚ)} {p q : ℚ × ℚ}
    (hp : ps.head? = some p) (hq : ps.getLast? = some q) (hend : len - u * dt ≤ q.2) :
    len - u * dt / 50 ≤ covered (completed u len dt ps) := by
  have hne : ps ≠ [] := by rintro rfl; simp at hp
  have h1 : ∃ a, (completed u len dt ps).head? = some a ∧ a.2 ≤ u * dt / 100 := by
    unfold completed
    rw [hp, List.append_assoc]
    dsimp only
    split
    · rename_i hlt
      refine ⟨_, rfl, ?_⟩
      exact div_nonneg (mul_nonneg hu.le hdt) (by norm_num)
    · rename_i hlt
      rw [not_lt, div_le_iff₀ hu] at hlt
      refine ⟨p, ?_, by linarith⟩
      rw [List.nil_append, List.head?_append, hp]; rfl
  have h2 : ∃ b, (completed u len dt ps).getLast? = some b ∧ len - u * dt / 100 ≤ b.2 := by
    unfold completed
    rw [hp, hq]
    dsimp only
    generalize (if dt / 100 < p.2 / u then [(p.1 - p.2 / u, (0 : ℚ))] else []) = pre
    split
    · rw [List.getLast?_append_of_ne_nil _ (List.cons_ne_nil _ _)]
      refine ⟨_, rfl, ?_⟩
      have := mul_nonneg hu.le hdt
      show len - u * dt / 100 ≤ len; linarith
    · rename_i hn
      rw [List.append_nil, List.getLast?_append_of_ne_nil _ hne]
      refine ⟨q, hq, ?_⟩
      by_contra hlt
      have hud := mul_nonneg hu.le hdt
      refine hn ⟨by linarith, ?_, ?_⟩
      · rw [div_le_iff₀ hu]; linarith
      · rw [lt_div_iff₀ hu]; linarith
  obtain ⟨a, ha, ha2⟩ := h1
  obtain ⟨b, hb, hb2⟩ := h2
  rw [covered_eq ha hb]; linarith

end UX
