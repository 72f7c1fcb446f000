import Verif.Model.Externality
import Verif.Spec.Externality
import Verif.Props.Counts
import Verif.Props.Demand

/-! # Lemmas on the congestion externality -/

namespace UX
open World

theorem pyGet_nat {α : Type} {xs : List α} {i : ℕ} {a : α} : pyGet xs (i : ℤ) = .ok a ↔ xs[i]? = some a := by
  unfold pyGet
  rw [if_pos (Int.natCast_nonneg i), Int.toNat_natCast]
  cases xs[i]? <;> simp

theorem pyInt_floor {x : ℚ} (h : 0 ≤ x) : pyInt x = ((⌊x⌋₊ : ℕ) : ℤ) := by
  rw [pyInt_nonneg h, Int.natCast_floor_eq_floor h]

theorem cum_get {W : World} (h : Reachable Any W) {l : LinkId} (hl : l < W.nLinks) {i a : ℕ} :
    ((W.L.cumArr l).reverse[i]? = some a ↔ i < W.T ∧ a = W.cfg.deltan * countUpTo (enters l) W.trace i) ∧
    ((W.L.cumDep l).reverse[i]? = some a ↔ i < W.T ∧ a = W.cfg.deltan * countUpTo (leaves l) W.trace i) := by
  obtain ⟨h1, h2⟩ := C03_points h hl
  rw [h1, h2]
  simp only [List.getElem?_map, Option.map_eq_some_iff, List.getElem?_eq_some_iff, List.getElem_range,
    List.length_range, World.dn]
  constructor <;> constructor
  · rintro ⟨j, ⟨hj, rfl⟩, rfl⟩; exact ⟨hj, rfl⟩
  · rintro ⟨hj, rfl⟩; exact ⟨i, ⟨hj, rfl⟩, rfl⟩
  · rintro ⟨j, ⟨hj, rfl⟩, rfl⟩; exact ⟨hj, rfl⟩
  · rintro ⟨hj, rfl⟩; exact ⟨i, ⟨hj, rfl⟩, rfl⟩

theorem queueEnd_ge {W : World} {l : LinkId} {n : ℕ} : ∀ {i e r : ℤ}, e ≤ i → W.queueEnd l n i e = .ok r → e ≤ r := by
  induction n with
  | zero => intro i e r hi h; simp only [queueEnd, Except.ok.injEq] at h; exact h.le
  | succ n ih =>
    intro i e r hi h
    unfold queueEnd at h
    rw [bind_ok] at h
    obtain ⟨q, -, h⟩ := h
    split at h
    · simp at h
    split at h
    · rw [bind_ok] at h
      obtain ⟨a, -, h⟩ := h
      rw [bind_ok] at h
      obtain ⟨d, -, h⟩ := h
      split at h
      · exact hi.trans (ih (by omega) h)
      · simp only [Except.ok.injEq] at h; exact h.le
    · simp only [Except.ok.injEq] at h; exact h.le

theorem queueEnd_spec {W : World} (h : Reachable Any W) {l : LinkId} (hl : l < W.nLinks) (hex : W.cfg.fl = id)
    (hd : 0 < W.cfg.deltat) (hn : 1 ≤ W.cfg.deltan) (hq : ∀ q ∈ W.L.ttActual l, 0 ≤ q) (n : ℕ) :
    ∀ {i : ℕ} {e r : ℤ}, (W.L.ttActual l).length ≤ n + i → W.queueEnd l n i e = .ok r →
      (¬ Queued W l i ∧ r = e) ∨ (Queued W l i ∧ ∃ j : ℕ, r = j ∧ i ≤ j ∧
        (∀ s, i ≤ s → s ≤ j → Queued W l s) ∧ ¬ Queued W l (j + 1)) := by
  induction n with
  | zero =>
    intro i e r hi hr
    simp only [queueEnd, Except.ok.injEq] at hr
    refine .inl ⟨?_, hr.symm⟩
    rintro ⟨q, h1, -⟩
    rw [List.getElem?_eq_none (by omega)] at h1
    cases h1
  | succ n ih =>
    intro i e r hi hr
    unfold queueEnd at hr
    rw [bind_ok] at hr
    obtain ⟨q, h1, hr⟩ := hr
    rw [pyGet_nat] at h1
    have hq0 := hq q (List.mem_of_getElem? h1)
    have hexit : W.exitStep i q = ((i + ⌊q / W.cfg.deltat⌋₊ : ℕ) : ℤ) := by
      unfold exitStep World.fl World.dt
      rw [hex, id, pyInt_floor (div_nonneg hq0 hd.le), Nat.cast_add]
    have hslow : W.slowTime l = W.L.length l / W.L.u l * (101 / 100) := by
      unfold slowTime World.fl
      rw [hex]; rfl
    rw [hexit, hslow] at hr
    split at hr
    · simp at hr
    split at hr
    · rename_i hs
      rw [bind_ok] at hr
      obtain ⟨a, h2, hr⟩ := hr
      rw [bind_ok] at hr
      obtain ⟨d, h3, hr⟩ := hr
      rw [pyGet_nat] at h2 h3
      obtain ⟨hT, rfl⟩ := (cum_get h hl).1.1 h2
      obtain ⟨-, rfl⟩ := (cum_get h hl).2.1 h3
      split at hr
      · rename_i hlt
        have hQ : Queued W l i := ⟨q, h1, hs, hT, Nat.lt_of_mul_lt_mul_left hlt⟩
        refine .inr ⟨hQ, ?_⟩
        rcases ih (i := i + 1) (by omega) (by exact_mod_cast hr) with ⟨h4, h5⟩ | ⟨h4, j, h5, h6, h7, h8⟩
        · refine ⟨i, h5, le_refl _, ?_, h4⟩
          intro s h8 h9
          rw [show s = i by omega]; exact hQ
        · refine ⟨j, h5, by omega, ?_, h8⟩
          intro s h9 h10
          rcases Nat.eq_or_lt_of_le h9 with h11 | h11
          · rw [← h11]; exact hQ
          · exact h7 s h11 h10
      · rename_i hlt
        simp only [Except.ok.injEq] at hr
        refine .inl ⟨?_, hr.symm⟩
        rintro ⟨q', h4, -, -, h5⟩
        rw [h1, Option.some.injEq] at h4
        subst h4
        exact hlt (Nat.mul_lt_mul_of_pos_left h5 hn)
    · rename_i hs
      simp only [Except.ok.injEq] at hr
      refine .inl ⟨?_, hr.symm⟩
      rintro ⟨q', h4, h5, -⟩
      rw [h1, Option.some.injEq] at h4
      subst h4
      exact hs h5

theorem leaderStep_le {dep : List ℕ} {out : ℤ} {n : ℕ} : ∀ {i r : ℤ}, i ≤ out → leaderStep dep out n i = .ok r → r ≤ out := by
  induction n with
  | zero => intro i r hi h; simp only [leaderStep, Except.ok.injEq] at h; exact h.ge
  | succ n ih =>
    intro i r hi h
    unfold leaderStep at h
    rw [bind_ok] at h
    obtain ⟨a, -, h⟩ := h
    rw [bind_ok] at h
    obtain ⟨b, -, h⟩ := h
    split at h
    · simp only [Except.ok.injEq] at h; omega
    · exact ih (by omega) h

/-- Invariant of the leader loop: no gap from `n` (exclusive) on. -/
theorem leaderStep_spec {W : World} (h : Reachable Any W) {l : LinkId} (hl : l < W.nLinks) (hn : 1 ≤ W.cfg.deltan)
    {out : ℕ} (n : ℕ) : ∀ {r : ℤ}, n ≤ out →
      (∀ i, n < i → i ≤ out → countUpTo (leaves l) W.trace i = countUpTo (leaves l) W.trace out) →
      leaderStep (W.L.cumDep l).reverse out n n = .ok r → ∃ k : ℕ, r = k ∧ LastGap W l out k := by
  induction n with
  | zero =>
    intro r ho hi hr
    simp only [leaderStep, Except.ok.injEq] at hr
    exact ⟨out, hr.symm, fun i h1 h2 => absurd h1 (by omega), .inr ⟨rfl, fun i h1 h2 => hi i (by omega) h2⟩⟩
  | succ n ih =>
    intro r ho hi hr
    unfold leaderStep at hr
    rw [bind_ok] at hr
    obtain ⟨a, h1, hr⟩ := hr
    rw [bind_ok] at hr
    obtain ⟨b, h2, hr⟩ := hr
    rw [pyGet_nat] at h1 h2
    obtain ⟨-, rfl⟩ := (cum_get h hl).2.1 h1
    obtain ⟨-, rfl⟩ := (cum_get h hl).2.1 h2
    split at hr
    · rename_i hlt
      simp only [Except.ok.injEq] at hr
      have hlt' := Nat.lt_of_mul_lt_mul_left hlt
      refine ⟨n + 1, hr.symm, hi, .inl ⟨by omega, ?_, hlt'⟩⟩
      rcases Nat.eq_or_lt_of_le ho with h3 | h3
      · rw [h3] at hlt'; exact absurd hlt' (lt_irrefl _)
      · exact h3
    · rename_i hlt
      have he : countUpTo (leaves l) W.trace (n + 1) = countUpTo (leaves l) W.trace out := by
        apply le_antisymm (countUpTo_mono ho)
        by_contra h3
        exact hlt (Nat.mul_lt_mul_of_pos_left (not_le.1 h3) hn)
      refine ih (by omega) ?_ (by
        have : ((n + 1 : ℕ) : ℤ) - 1 = (n : ℤ) := by push_cast; omega
        rw [this] at hr; exact hr)
      intro i h3 h4
      rcases Nat.eq_or_lt_of_le (Nat.succ_le_of_lt h3) with h5 | h5
      · rw [← h5]; exact he
      · exact hi i h5 h4

theorem entered_eq {W : World} {l : LinkId} {i j : ℕ} (hij : i ≤ j) :
    countUpTo (enters l) W.trace j = countUpTo (enters l) W.trace i + enteredIn W l i j := by
  unfold countUpTo enteredIn
  induction W.trace with
  | nil => simp
  | cons e tr ih =>
    simp only [List.countP_cons, ih]
    by_cases h1 : (enters l e).isSome = true
    · simp only [h1, Bool.true_and, decide_eq_true_eq]
      split_ifs <;> omega
    · simp [h1]

end UX
