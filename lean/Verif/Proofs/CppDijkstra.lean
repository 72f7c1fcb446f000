import Verif.Spec.CppRoutes
import Verif.Proofs.Basic

/-!
# Dijkstra's algorithm with a priority queue
-/

namespace UX.Cpp
open Spec CWorld

theorem pqTop_spec {pq : List (ℚ × ℕ)} {p : ℚ × ℕ} (h : pqTop pq = some p) :
    p ∈ pq ∧ ∀ q ∈ pq, pairLe p q = true := by
  cases pq with
  | nil => simp [pqTop] at h
  | cons a t =>
    simp only [pqTop, Option.some.injEq] at h
    have trans : ∀ x y z : ℚ × ℕ, pairLe x y = true → pairLe y z = true → pairLe x z = true := by
      intro x y z
      simp only [pairLe, decide_eq_true_eq]
      rintro (h1 | ⟨h1, h1'⟩) (h2 | ⟨h2, h2'⟩)
      · exact Or.inl (h1.trans h2)
      · exact Or.inl (h2 ▸ h1)
      · exact Or.inl (h1 ▸ h2)
      · exact Or.inr ⟨h1.trans h2, h1'.trans h2'⟩
    have refl : ∀ x : ℚ × ℕ, pairLe x x = true := fun x => by simp [pairLe]
    have total : ∀ x y : ℚ × ℕ, pairLe x y ≠ true → pairLe y x = true := by
      intro x y
      simp only [pairLe, decide_eq_true_eq, ne_eq, not_or, not_and]
      rintro ⟨h1, h2⟩
      rcases lt_trichotomy x.1 y.1 with h | h | h
      · exact absurd h h1
      · exact Or.inr ⟨h.symm, le_of_lt (not_le.1 (h2 h))⟩
      · exact Or.inl h
    subst h
    clear * - trans refl total
    induction t generalizing a with
    | nil => simp [refl]
    | cons b t ih =>
      simp only [List.foldl_cons]
      obtain ⟨h1, h2⟩ := ih (if pairLe a b = true then a else b)
      set m := List.foldl (fun b q => if pairLe b q = true then b else q)
        (if pairLe a b = true then a else b) t
      have hm : pairLe m (if pairLe a b = true then a else b) = true := h2 _ List.mem_cons_self
      constructor
      · rcases List.mem_cons.1 h1 with h | h
        · by_cases hab : pairLe a b = true
          · rw [if_pos hab] at h; rw [h]; exact List.mem_cons_self
          · rw [if_neg hab] at h; rw [h]; exact List.mem_cons_of_mem _ List.mem_cons_self
        · exact List.mem_cons_of_mem _ (List.mem_cons_of_mem _ h)
      · intro q hq
        by_cases hab : pairLe a b = true
        · rw [if_pos hab] at hm
          rcases List.mem_cons.1 hq with rfl | hq
          · exact hm
          rcases List.mem_cons.1 hq with rfl | hq
          · exact trans _ _ _ hm hab
          · exact h2 _ (List.mem_cons_of_mem _ hq)
        · rw [if_neg hab] at hm
          rcases List.mem_cons.1 hq with rfl | hq
          · exact trans _ _ _ hm (total _ _ hab)
          rcases List.mem_cons.1 hq with rfl | hq
          · exact hm
          · exact h2 _ (List.mem_cons_of_mem _ hq)

theorem pqTop_none {pq : List (ℚ × ℕ)} (h : pqTop pq = none) : pq = [] := by
  cases pq with
  | nil => rfl
  | cons a t => simp [pqTop] at h

theorem mem_adjRow {n : ℕ} {adj : ℕ → ℕ → Option ℚ} {u : ℕ} {e : ℕ × ℚ} :
    e ∈ adjRow n adj u ↔ Edge n adj u e.1 e.2 := by
  obtain ⟨v, w⟩ := e
  simp only [adjRow, List.mem_filterMap, List.mem_range, Edge]
  constructor
  · rintro ⟨j, hj, h⟩
    split at h
    · rename_i w' hw
      split at h
      · rename_i hpos
        obtain ⟨rfl, rfl⟩ := Prod.mk.inj (Option.some.inj h)
        exact ⟨hj, hw, hpos⟩
      · simp at h
    · simp at h
  · rintro ⟨hv, hw, hpos⟩
    exact ⟨v, hv, by simp [hw, hpos]⟩

theorem adjRow_length (n : ℕ) (adj : ℕ → ℕ → Option ℚ) (u : ℕ) : (adjRow n adj u).length ≤ n := by
  unfold adjRow
  exact (List.length_filterMap_le _ _).trans (by simp)

/-- What is known of a tentative distance and its next hop. -/
def Found (fl : ℚ → ℚ) (n : ℕ) (adj : ℕ → ℕ → Option ℚ) (s v : ℕ) (d : ℚ) (nx : Option ℕ) : Prop :=
  (v = s ∧ d = 0 ∧ nx = some s) ∨ (v ≠ s ∧ ∃ h, nx = some h ∧ WalkVia fl n adj s h v d)

/-- Invariant of the loop, with the edges of `u` in `done` already relaxed (`u` itself settled). -/
structure DInv (fl : ℚ → ℚ) (n : ℕ) (adj : ℕ → ℕ → Option ℚ) (s : ℕ) (D : CDij)
    (u : ℕ) (done : ℕ × ℚ → Prop) : Prop where
  zero : ∃ d, D.dist s = some d
  found : ∀ v d, D.dist v = some d → v < n ∧ fl d = d ∧ 0 ≤ d ∧ Found fl n adj s v d (D.next v)
  none_next : ∀ v, D.dist v = none → D.next v = none
  settled : ∀ x, D.seen x = true → ∃ d, D.dist x = some d
  edge : ∀ x dx v w, D.seen x = true → D.dist x = some dx → Edge n adj x v w →
    (x ≠ u ∨ done (v, w)) → ∃ dv, D.dist v = some dv ∧ dv ≤ fl (dx + w)
  queued : ∀ v d, D.dist v = some d → D.seen v = false → (d, v) ∈ D.pq
  inq : ∀ d v, (d, v) ∈ D.pq → ∃ d', D.dist v = some d' ∧ d' ≤ d
  order : ∀ x dx, D.seen x = true → D.dist x = some dx → ∀ q ∈ D.pq, dx ≤ q.1

theorem relax_inv {fl : ℚ → ℚ} (hfl : FlOK fl) {n : ℕ} {adj : ℕ → ℕ → Option ℚ} {s : ℕ}
    {D : CDij} {u : ℕ} {done : ℕ × ℚ → Prop} {du : ℚ} (h : DInv fl n adj s D u done)
    (hs : D.seen s = true) (hu : D.seen u = true) (hdu : D.dist u = some du)
    (hmax : ∀ x dx, D.seen x = true → D.dist x = some dx → dx ≤ du)
    {e : ℕ × ℚ} (he : Edge n adj u e.1 e.2) :
    let D' := relax fl s u du D e
    DInv fl n adj s D' u (fun q => done q ∨ q = e) ∧ D'.seen = D.seen ∧ D'.dist u = some du ∧
      D'.pq.length ≤ D.pq.length + 1 ∧
      (∀ x, D.seen x = true → D'.dist x = D.dist x) := by
  intro D'
  obtain ⟨v, w⟩ := e
  obtain ⟨hvn, hadj, hw⟩ := he
  simp only at hvn hadj hw
  have hflu := (h.found u du hdu).2.1
  have hge : du ≤ fl (du + w) := by
    calc du = fl du := hflu.symm
      _ ≤ fl (du + w) := hfl.mono (by linarith)
  by_cases hc : (match D.dist v with | none => true | some d => decide (fl (du + w) < d)) = true
  · -- the distance is improved
    have hD' : D' = { D with
        dist := upd D.dist v (some (fl (du + w)))
        next := upd D.next v (if u = s then some v else D.next u)
        pq := (fl (du + w), v) :: D.pq } := by
      show relax fl s u du D (v, w) = _
      unfold relax
      exact if_pos hc
    have hvns : D.seen v = false := by
      by_contra hseen
      have hseen : D.seen v = true := by simpa using hseen
      obtain ⟨dv, hdv⟩ := h.settled v hseen
      rw [hdv] at hc
      have := hmax v dv hseen hdv
      simp at hc
      linarith
    have hvs : v ≠ s := fun e => by rw [e, hs] at hvns; simp at hvns
    have hvu : u ≠ v := fun e => by rw [← e, hu] at hvns; simp at hvns
    have hold : ∀ x, D.seen x = true → D'.dist x = D.dist x := by
      intro x hx
      rw [hD']
      exact upd_ne _ _ (fun e => by rw [e, hvns] at hx; simp at hx)
    have hle : ∀ x d, D.dist x = some d → ∃ d', D'.dist x = some d' ∧ d' ≤ d := by
      intro x d hx
      by_cases hxv : x = v
      · subst hxv
        refine ⟨fl (du + w), by rw [hD']; exact upd_same _ _ _, ?_⟩
        rw [hx] at hc
        simp at hc
        exact hc.le
      · exact ⟨d, by rw [hD']; simpa [upd_ne _ _ hxv] using hx, le_rfl⟩
    have hseen' : D'.seen = D.seen := by rw [hD']
    refine ⟨⟨?_, ?_, ?_, ?_, ?_, ?_, ?_, ?_⟩, hseen', ?_, ?_, hold⟩
    · obtain ⟨d, hd⟩ := h.zero
      exact ⟨d, by rw [hold s hs, hd]⟩
    · intro x d hx
      by_cases hxv : x = v
      · subst hxv
        have hx' : d = fl (du + w) := by
          rw [hD'] at hx; simpa [upd_same] using hx.symm
        subst hx'
        refine ⟨hvn, hfl.idem _, (h.found u du hdu).2.2.1.trans hge, Or.inr ⟨hvs, ?_⟩⟩
        have hnext : D'.next x = if u = s then some x else D.next u := by
          rw [hD']; exact upd_same _ _ _
        rw [hnext]
        by_cases hus : u = s
        · have hdu0 : du = 0 := by
            rcases (h.found u du hdu).2.2.2 with ⟨_, h0, _⟩ | ⟨hne, _⟩
            · exact h0
            · exact absurd hus hne
          rw [if_pos hus, hdu0]
          exact ⟨x, rfl, WalkVia.one ⟨hvn, by rw [← hus]; exact hadj, hw⟩⟩
        · rw [if_neg hus]
          rcases (h.found u du hdu).2.2.2 with ⟨hu', _⟩ | ⟨_, hp, hnx, hw'⟩
          · exact absurd hu' hus
          · exact ⟨hp, hnx, WalkVia.snoc hw' ⟨hvn, hadj, hw⟩⟩
      · have hx' : D.dist x = some d := by rw [hD'] at hx; simpa [upd_ne _ _ hxv] using hx
        have := h.found x d hx'
        have hn : D'.next x = D.next x := by rw [hD']; exact upd_ne _ _ hxv
        rw [hn]; exact this
    · intro x hx
      by_cases hxv : x = v
      · rw [hD'] at hx; simp [hxv, upd_same] at hx
      · have hx' : D.dist x = none := by rw [hD'] at hx; simpa [upd_ne _ _ hxv] using hx
        have hn : D'.next x = D.next x := by rw [hD']; exact upd_ne _ _ hxv
        rw [hn]; exact h.none_next x hx'
    · intro x hx
      rw [hseen'] at hx
      rw [hold x hx]; exact h.settled x hx
    · intro x dx y wy hx hdx hedge hor
      rw [hseen'] at hx
      rw [hold x hx] at hdx
      by_cases hdone : x ≠ u ∨ done (y, wy)
      · obtain ⟨dv, h1, h2⟩ := h.edge x dx y wy hx hdx hedge hdone
        obtain ⟨d', h3, h4⟩ := hle y dv h1
        exact ⟨d', h3, h4.trans h2⟩
      · have hxu : x = u := by by_contra hne; exact hdone (Or.inl hne)
        have : (y, wy) = (v, w) := by
          rcases hor with h1 | h1 | h1
          · exact absurd hxu h1
          · exact absurd (Or.inr h1) hdone
          · exact h1
        obtain ⟨rfl, rfl⟩ := Prod.mk.inj this
        rw [hxu, hdu] at hdx
        obtain rfl := Option.some.inj hdx
        exact ⟨_, by rw [hD']; exact upd_same _ _ _, le_rfl⟩
    · intro x d hx hsx
      rw [hseen'] at hsx
      by_cases hxv : x = v
      · rw [hD'] at hx ⊢
        simp only [hxv, upd_same, Option.some.injEq] at hx
        rw [hxv, ← hx]; exact List.mem_cons_self
      · have hx' : D.dist x = some d := by rw [hD'] at hx; simpa [upd_ne _ _ hxv] using hx
        rw [hD']
        exact List.mem_cons_of_mem _ (h.queued x d hx' hsx)
    · intro d x hmem
      rw [hD'] at hmem
      rcases List.mem_cons.1 hmem with hmem | hmem
      · obtain ⟨rfl, rfl⟩ := Prod.mk.inj hmem
        exact ⟨_, by rw [hD']; exact upd_same _ _ _, le_rfl⟩
      · obtain ⟨d', h1, h2⟩ := h.inq d x hmem
        obtain ⟨d'', h3, h4⟩ := hle x d' h1
        exact ⟨d'', h3, h4.trans h2⟩
    · intro x dx hx hdx q hq
      rw [hseen'] at hx
      rw [hold x hx] at hdx
      rw [hD'] at hq
      rcases List.mem_cons.1 hq with hq | hq
      · rw [hq]; exact (hmax x dx hx hdx).trans hge
      · exact h.order x dx hx hdx q hq
    · rw [hold u hu]; exact hdu
    · rw [hD']; simp
  · have hD' : D' = D := by
      show relax fl s u du D (v, w) = _
      unfold relax
      exact if_neg hc
    rw [hD']
    refine ⟨⟨h.zero, h.found, h.none_next, h.settled, ?_, h.queued, h.inq, h.order⟩, rfl, hdu, by omega,
      fun _ _ => rfl⟩
    intro x dx y wy hx hdx hedge hor
    by_cases hdone : x ≠ u ∨ done (y, wy)
    · exact h.edge x dx y wy hx hdx hedge hdone
    · have hxu : x = u := by by_contra hne; exact hdone (Or.inl hne)
      have : (y, wy) = (v, w) := by
        rcases hor with h1 | h1 | h1
        · exact absurd hxu h1
        · exact absurd (Or.inr h1) hdone
        · exact h1
      obtain ⟨rfl, rfl⟩ := Prod.mk.inj this
      rw [hxu, hdu] at hdx
      obtain rfl := Option.some.inj hdx
      cases hdv : D.dist y with
      | none => simp [hdv] at hc
      | some dv =>
        simp [hdv] at hc
        exact ⟨dv, rfl, hc⟩

theorem fold_relax_inv {fl : ℚ → ℚ} (hfl : FlOK fl) {n : ℕ} {adj : ℕ → ℕ → Option ℚ} {s u : ℕ}
    {du : ℚ} (es : List (ℕ × ℚ)) (hes : ∀ e ∈ es, Edge n adj u e.1 e.2) :
    ∀ (D : CDij) (done : ℕ × ℚ → Prop), DInv fl n adj s D u done → D.seen s = true →
    D.seen u = true → D.dist u = some du →
    (∀ x dx, D.seen x = true → D.dist x = some dx → dx ≤ du) →
    let D' := es.foldl (relax fl s u du) D
    DInv fl n adj s D' u (fun q => done q ∨ q ∈ es) ∧ D'.seen = D.seen ∧
      D'.pq.length ≤ D.pq.length + es.length ∧
      (∀ x, D.seen x = true → D'.dist x = D.dist x) := by
  induction es with
  | nil =>
    intro D done h _ _ _ _
    refine ⟨?_, rfl, by simp, fun _ _ => rfl⟩
    simpa using h
  | cons e t ih =>
    intro D done h hs hu hdu hmax
    obtain ⟨h1, h2, h3, h4, h5⟩ := relax_inv hfl h hs hu hdu hmax (hes e List.mem_cons_self)
    obtain ⟨g1, g2, g3, g4⟩ := ih (fun e he => hes e (List.mem_cons_of_mem _ he)) _ _ h1
      (by rw [h2]; exact hs) (by rw [h2]; exact hu) h3
      (fun x dx hx hdx => by rw [h2] at hx; rw [h5 x hx] at hdx; exact hmax x dx hx hdx)
    simp only [List.foldl_cons]
    refine ⟨?_, by rw [g2, h2], by simp only [List.length_cons]; omega, ?_⟩
    · have : (fun q => (done q ∨ q = e) ∨ q ∈ t) = (fun q => done q ∨ q ∈ e :: t) := by
        funext q; simp [or_assoc]
      rw [this] at g1; exact g1
    · intro x hx
      rw [g4 x (by rw [h2]; exact hx), h5 x hx]

/-- Number of nodes not settled. -/
def unseen (n : ℕ) (D : CDij) : ℕ := ((List.range n).filter (fun v => !D.seen v)).length

theorem unseen_upd {n : ℕ} {D : CDij} {u : ℕ} (hu : u < n) (h : D.seen u = false) :
    unseen n { D with seen := upd D.seen u true } + 1 = unseen n D := by
  unfold unseen
  have key : ∀ m, ((List.range m).filter (fun v => !upd D.seen u true v)).length +
      (if u < m then 1 else 0) = ((List.range m).filter (fun v => !D.seen v)).length := by
    intro m
    induction m with
    | zero => simp
    | succ m ih =>
      rw [List.range_succ, List.filter_append, List.filter_append, List.length_append,
        List.length_append, ← ih]
      by_cases hm : u = m
      · subst hm
        simp [upd_same, h]
      · have : upd D.seen u true m = D.seen m := upd_ne _ _ (Ne.symm hm)
        have h2 : (u < m + 1) ↔ (u < m) := by omega
        simp only [List.filter_cons, List.filter_nil, this, h2]
        omega
  have := key n
  rw [if_pos hu] at this
  exact this

theorem dijLoop_spec {fl : ℚ → ℚ} (hfl : FlOK fl) {n : ℕ} {adj : ℕ → ℕ → Option ℚ} {s : ℕ} :
    ∀ (k : ℕ) (D : CDij), (∃ u0, DInv fl n adj s D u0 (fun q => Edge n adj u0 q.1 q.2)) →
    (D.seen s = true ∨ (D.pq = [(0, s)] ∧ ∀ x, D.seen x = false)) →
    D.pq.length + n * unseen n D ≤ k →
    let D' := dijLoop fl n adj s k D
    (∃ u0, DInv fl n adj s D' u0 (fun q => Edge n adj u0 q.1 q.2)) ∧ D'.pq = [] := by
  intro k
  induction k with
  | zero =>
    intro D h _ hk
    have h0 : D.pq.length = 0 := by omega
    exact ⟨h, List.length_eq_zero_iff.1 h0⟩
  | succ k ih =>
    intro D hinv hs hk
    unfold dijLoop
    cases hp : pqTop D.pq with
    | none => exact ⟨hinv, pqTop_none hp⟩
    | some p =>
      obtain ⟨hmem, hmin⟩ := pqTop_spec hp
      obtain ⟨u0, h⟩ := hinv
      have hlen : (D.pq.erase p).length + 1 = D.pq.length := by
        rw [List.length_erase_of_mem hmem]
        have := List.length_pos_of_mem hmem
        omega
      have hmin' : ∀ q ∈ D.pq, p.1 ≤ q.1 := by
        intro q hq
        have := hmin q hq
        simp only [pairLe, decide_eq_true_eq] at this
        rcases this with h | ⟨h, _⟩
        · exact h.le
        · exact h.le
      simp only
      by_cases hseen : D.seen p.2 = true
      · rw [if_pos hseen]
        refine ih _ ⟨u0, h.zero, h.found, h.none_next, h.settled, h.edge, ?_, ?_, ?_⟩ ?_ ?_
        · intro v d hv hsv
          have hne : (d, v) ≠ p := fun e => by rw [← e] at hseen; simp only at hseen hsv; rw [hsv] at hseen; simp at hseen
          exact (List.mem_erase_of_ne hne).2 (h.queued v d hv hsv)
        · intro d v hm; exact h.inq d v (List.mem_of_mem_erase hm)
        · intro x dx hx hdx q hq; exact h.order x dx hx hdx q (List.mem_of_mem_erase hq)
        · rcases hs with hs | ⟨_, hs⟩
          · exact Or.inl hs
          · rw [hs p.2] at hseen; simp at hseen
        · have : unseen n { D with pq := D.pq.erase p } = unseen n D := rfl
          rw [this]
          simp only
          omega
      · rw [if_neg hseen]
        have hseen : D.seen p.2 = false := by simpa using hseen
        obtain ⟨d', hd', hle⟩ := h.inq p.1 p.2 hmem
        have hpd : D.dist p.2 = some p.1 := by
          have := hmin' _ (h.queued _ _ hd' hseen)
          simp only at this
          rw [hd', le_antisymm hle this]
        have hpn := (h.found _ _ hpd).1
        have hs' : upd D.seen p.2 true s = true := by
          rcases hs with hs | ⟨hs, _⟩
          · by_cases e : s = p.2
            · rw [e, upd_same]
            · rw [upd_ne _ _ e]; exact hs
          · rw [hs] at hmem
            have : p = (0, s) := by simpa using hmem
            rw [this]; exact upd_same _ _ _
        set D2 : CDij := { D with pq := D.pq.erase p, seen := upd D.seen p.2 true } with hD2
        have hsub : ∀ x, D2.seen x = true → x = p.2 ∨ D.seen x = true := by
          intro x hx
          by_cases e : x = p.2
          · exact Or.inl e
          · right; rw [hD2] at hx; simpa [upd_ne _ _ e] using hx
        have hmax : ∀ x dx, D2.seen x = true → D2.dist x = some dx → dx ≤ p.1 := by
          intro x dx hx hdx
          rcases hsub x hx with e | hx'
          · have hdx' : D.dist x = some dx := hdx
            rw [e, hpd] at hdx'
            exact (Option.some.inj hdx').ge
          · exact h.order x dx hx' hdx p hmem
        have hinv2 : DInv fl n adj s D2 p.2 (fun _ => False) := by
          refine ⟨h.zero, h.found, h.none_next, ?_, ?_, ?_, ?_, ?_⟩
          · intro x hx
            rcases hsub x hx with e | hx'
            · exact ⟨p.1, by rw [e]; exact hpd⟩
            · exact h.settled x hx'
          · intro x dx v w hx hdx he hor
            rcases hor with hne | hf
            · rcases hsub x hx with e | hx'
              · exact absurd e hne
              · refine h.edge x dx v w hx' hdx he ?_
                by_cases hx0 : x = u0
                · right; rw [← hx0]; exact he
                · exact Or.inl hx0
            · exact hf.elim
          · intro v d hv hsv
            have hv2 : v ≠ p.2 := fun e => by
              rw [hD2] at hsv; simp [e, upd_same] at hsv
            have hsv' : D.seen v = false := by rw [hD2] at hsv; simpa [upd_ne _ _ hv2] using hsv
            exact (List.mem_erase_of_ne (fun e => hv2 (by rw [← e]))).2 (h.queued v d hv hsv')
          · intro d v hm; exact h.inq d v (List.mem_of_mem_erase hm)
          · intro x dx hx hdx q hq
            exact (hmax x dx hx hdx).trans (hmin' q (List.mem_of_mem_erase hq))
        have hget : ((D2.dist p.2).getD 0) = p.1 := by
          have : D2.dist p.2 = some p.1 := hpd
          rw [this]; rfl
        have hstep := fold_relax_inv hfl (adjRow n adj p.2) (fun e he => mem_adjRow.1 he) D2
          (fun _ => False) hinv2 hs' (by rw [hD2]; exact upd_same _ _ _)
          (show D2.dist p.2 = some p.1 from hpd) hmax
        obtain ⟨g1, g2, g3, _⟩ := hstep
        have hget' : (D.dist p.2).getD 0 = p.1 := hget
        rw [hget']
        refine ih _ ⟨p.2, ?_⟩ (Or.inl (by rw [g2]; exact hs')) ?_
        · have : (fun q : ℕ × ℚ => False ∨ q ∈ adjRow n adj p.2) =
              (fun q => Edge n adj p.2 q.1 q.2) := by
            funext q; simp [mem_adjRow]
          rw [this] at g1; exact g1
        · have hu := unseen_upd hpn hseen
          have hu2 : unseen n (List.foldl (relax fl s p.2 p.1) D2 (adjRow n adj p.2)) =
              unseen n { D with seen := upd D.seen p.2 true } := by
            unfold unseen; rw [g2]
          have hl := adjRow_length n adj p.2
          rw [hu2]
          have hD2l : D2.pq.length = (D.pq.erase p).length := rfl
          rw [← hu, Nat.mul_add, Nat.mul_one] at hk
          omega

/-- What the algorithm has computed when it stops. -/
theorem dijkstra_inv {fl : ℚ → ℚ} (hfl : FlOK fl) {n : ℕ} (adj : ℕ → ℕ → Option ℚ) {s : ℕ}
    (hs : s < n) :
    (∃ u0, DInv fl n adj s (dijkstra fl n adj s) u0 (fun q => Edge n adj u0 q.1 q.2)) ∧
      (dijkstra fl n adj s).pq = [] := by
  unfold dijkstra
  refine dijLoop_spec hfl _ _ ⟨s, ?_⟩ (Or.inr ⟨rfl, fun _ => rfl⟩) ?_
  · refine ⟨⟨0, by simp⟩, ?_, ?_, ?_, ?_, ?_, ?_, ?_⟩
    · intro v d hv
      by_cases e : v = s
      · subst e
        simp only [upd_same, Option.some.injEq] at hv
        exact ⟨hs, by rw [← hv, hfl.zero], hv.le, Or.inl ⟨rfl, hv.symm, by simp⟩⟩
      · simp [upd_ne _ _ e] at hv
    · intro v hv
      by_cases e : v = s
      · simp [e, upd_same] at hv
      · simp [upd_ne _ _ e]
    · intro x hx; simp at hx
    · intro x dx v w hx; simp at hx
    · intro v d hv _
      by_cases e : v = s
      · subst e
        simp only [upd_same, Option.some.injEq] at hv
        rw [← hv]; simp
      · simp [upd_ne _ _ e] at hv
    · intro d v hm
      have : (d, v) = (0, s) := by simpa using hm
      obtain ⟨rfl, rfl⟩ := Prod.mk.inj this
      exact ⟨0, by simp, le_rfl⟩
    · intro x dx hx; simp at hx
  · have : unseen n (CDij.mk (upd (fun _ => none) s (some 0)) (upd (fun _ => none) s (some s))
        (fun _ => false) [(0, s)]) = n := by
      simp [unseen]
    rw [this]
    simp only [List.length_cons, List.length_nil]
    omega

theorem walkVia_walk {fl : ℚ → ℚ} {n : ℕ} {adj : ℕ → ℕ → Option ℚ} {s h v : ℕ} {c : ℚ}
    (hw : WalkVia fl n adj s h v c) : Walk fl n adj s v c := by
  induction hw with
  | one he => exact Walk.snoc Walk.nil he
  | snoc _ he ih => exact Walk.snoc ih he

theorem found_walk {fl : ℚ → ℚ} {n : ℕ} {adj : ℕ → ℕ → Option ℚ} {s v : ℕ} {d : ℚ} {nx : Option ℕ}
    (h : Found fl n adj s v d nx) : Walk fl n adj s v d := by
  rcases h with ⟨rfl, rfl, _⟩ | ⟨_, _, _, hw⟩
  · exact Walk.nil
  · exact walkVia_walk hw

theorem dijkstra_le {fl : ℚ → ℚ} (hfl : FlOK fl) {n : ℕ} {adj : ℕ → ℕ → Option ℚ} {s : ℕ}
    (hs : s < n) {v : ℕ} {c : ℚ} (hw : Walk fl n adj s v c) :
    ∃ d, (dijkstra fl n adj s).dist v = some d ∧ d ≤ c := by
  obtain ⟨⟨u0, h⟩, hpq⟩ := dijkstra_inv hfl adj hs
  have hseen : ∀ x d, (dijkstra fl n adj s).dist x = some d → (dijkstra fl n adj s).seen x = true := by
    intro x d hx
    by_contra hne
    have := h.queued x d hx (by simpa using hne)
    rw [hpq] at this; simp at this
  induction hw with
  | nil =>
    obtain ⟨d, hd⟩ := h.zero
    refine ⟨d, hd, ?_⟩
    rcases (h.found s d hd).2.2.2 with ⟨_, h0, _⟩ | ⟨hne, _⟩
    · exact h0.le
    · exact absurd rfl hne
  | snoc _ he ih =>
    rename_i x y c w _
    obtain ⟨d, hd, hle⟩ := ih
    obtain ⟨dv, h1, h2⟩ := h.edge x d y w (hseen x d hd) hd he (by
      by_cases e : x = u0
      · right; rw [← e]; exact he
      · exact Or.inl e)
    exact ⟨dv, h1, h2.trans (hfl.mono (by linarith))⟩

end UX.Cpp
