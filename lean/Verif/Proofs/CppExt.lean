import Verif.Proofs.CppDta
import Verif.Proofs.CppFlow

/-!
# Congestion externality in the C++ engine
-/

namespace UX.Cpp
open CWorld Spec

theorem pyInt_toNat {q : ℚ} (h : 0 ≤ q) : (pyInt q).toNat = ⌊q⌋₊ := by
  unfold pyInt
  rw [if_pos h]
  rfl

theorem pyInt_toNat' (q : ℚ) : (pyInt q).toNat = ⌊q⌋₊ := by
  by_cases h : 0 ≤ q
  · exact pyInt_toNat h
  · unfold pyInt
    rw [if_neg h, Nat.floor_of_nonpos (not_le.1 h).le]
    have : ⌈q⌉ ≤ 0 := Int.ceil_le.2 (by push_cast; exact (not_le.1 h).le)
    omega

theorem Flow.mono_le {A D : ℕ → ℕ → ℕ} {W : CWorld} (f : Flow A D W) {l : ℕ} (hl : l < W.g.nLinks) {i j : ℕ}
    (hij : i ≤ j) (hj : j < W.g.timestep) : A l i ≤ A l j := by
  induction j, hij using Nat.le_induction with
  | base => exact le_rfl
  | succ j _ ih => exact (ih (by omega)).trans (f.mono l j hl hj).1

theorem length_filter_between {α : Type} (f : α → ℕ) {i j : ℕ} (hij : i ≤ j) (xs : List α) :
    (xs.filter (fun e => f e ≤ j)).length =
      (xs.filter (fun e => f e ≤ i)).length + (xs.filter (fun e => i < f e ∧ f e ≤ j)).length := by
  induction xs with
  | nil => rfl
  | cons x xs ih =>
    simp only [List.filter_cons]
    by_cases h1 : f x ≤ i
    · rw [if_pos (by simp; omega), if_pos (by simpa using h1), if_neg (by simp; omega)]
      simp only [List.length_cons]; omega
    · by_cases h2 : f x ≤ j
      · rw [if_pos (by simp; omega), if_neg (by simpa using h1), if_pos (by simp; omega)]
        simp only [List.length_cons]; omega
      · rw [if_neg (by simp; omega), if_neg (by simpa using h1), if_neg (by simp; omega)]
        exact ih

section
variable {W : CWorld} (h : CReach W) (hfl : W.g.fl = id) (hT : 0 < W.g.deltaT) {l : ℕ} (hl : l < W.g.nLinks)
include h hfl hT hl

theorem ensure_getD {i : ℕ} (hi : i < W.g.totalSteps) : (W.link l).ensureTT.ttReal.getD i 0 = recordAt W l i :=
  ensureTT_getD (h.ttFresh.app l) (by rw [h.ttFresh.len l hl]; exact hi) _ _

variable (hq : ∀ i, i < W.g.totalSteps → 0 ≤ recordAt W l i)
include hq

theorem exitIdx_eq {i : ℕ} (hi : i < W.g.totalSteps) :
    W.exitIdx i ((W.link l).ensureTT.ttReal.getD i 0) = leaves W l i := by
  unfold exitIdx leaves
  rw [ensure_getD h hfl hT hl hi, hfl, id, pyInt_toNat (div_nonneg (hq i hi) hT.le)]

theorem extEnd_spec (n i e : ℕ) (hn : W.g.totalSteps ≤ i + n) (he : e ≤ i) :
    let j := W.extEnd l (W.link l).ensureTT.ttReal n i e
    (j = e ∧ ¬ Congested W l i) ∨ (i ≤ j ∧ (∀ s, i ≤ s → s ≤ j → Congested W l s) ∧ ¬ Congested W l (j + 1)) := by
  induction n generalizing i e with
  | zero =>
    simp only [extEnd]
    refine Or.inl ⟨trivial, fun hc => ?_⟩
    have := hc.2.1
    unfold leaves at this
    omega
  | succ n ih =>
    simp only [extEnd]
    have hlen : (W.link l).ensureTT.ttReal.length = W.g.totalSteps := by
      rw [ensureTT_length]; exact h.ttFresh.len l hl
    by_cases hi : i < W.g.totalSteps
    · rw [exitIdx_eq h hfl hT hl hq hi, ensure_getD h hfl hT hl hi, hlen, hfl]
      simp only [id]
      split
      · rename_i hx
        exact Or.inl ⟨rfl, fun hc => absurd hc.2.1 (by omega)⟩
      · rename_i hx
        split
        · rename_i hy
          have hc : Congested W l i := ⟨hy.1, by omega, by linarith [hy.2]⟩
          rcases ih (i + 1) i (by omega) (by omega) with ⟨h1, h2⟩ | ⟨h1, h2, h3⟩
          · refine Or.inr ⟨by simp only [h1]; exact le_rfl, fun s h4 h5 => ?_, by simp only [h1]; exact h2⟩
            simp only [h1] at h5
            have : s = i := by omega
            rw [this]; exact hc
          · refine Or.inr ⟨by omega, fun s h4 h5 => ?_, h3⟩
            by_cases hs : s = i
            · rw [hs]; exact hc
            · exact h2 s (by omega) h5
        · rename_i hy
          exact Or.inl ⟨rfl, fun hc => hy ⟨hc.1, by linarith [hc.2.2]⟩⟩
    · have hnc : ¬ Congested W l i := fun hc => by
        have := hc.2.1
        unfold leaves at this
        omega
      rw [if_pos]
      · exact Or.inl ⟨rfl, hnc⟩
      · rw [hlen]; unfold exitIdx; omega

end

theorem extLead_spec (d : ℕ → ℚ) (out k : ℕ) (hk : k ≤ out)
    (hu : ∀ i, k < i → i ≤ out → d out ≤ d i) : LastBelow d out (extLead d out k) := by
  induction k with
  | zero =>
    simp only [extLead]
    exact ⟨fun i h1 h2 => by omega, Or.inr ⟨rfl, fun i h1 h2 => hu i (by omega) h2⟩⟩
  | succ k ih =>
    simp only [extLead]
    split
    · rename_i hlt
      have hne : k + 1 ≠ out := fun e => by rw [e] at hlt; exact lt_irrefl _ hlt
      exact ⟨hu, Or.inl ⟨by omega, by omega, hlt⟩⟩
    · rename_i hge
      refine ih (by omega) (fun i h1 h2 => ?_)
      by_cases hi : i = k + 1
      · rw [hi]; exact not_lt.1 hge
      · exact hu i (by omega) h2

theorem LastBelow_le {d : ℕ → ℚ} {out k : ℕ} (h : LastBelow d out k) : k ≤ out := by
  rcases h.2 with h | h <;> omega

theorem extLink_charged {W : CWorld} (h : CReach W) (hfl : W.g.fl = id) (hT : 0 < W.g.deltaT) {l : ℕ}
    (hl : l < W.g.nLinks) (hq : ∀ i, i < W.g.totalSteps → 0 ≤ recordAt W l i) {i : ℕ} (hi : i < W.g.totalSteps) :
    Charged W l i (W.extLink l i) := by
  have hlen : (W.link l).ensureTT.ttReal.length = W.g.totalSteps := by
    rw [ensureTT_length]; exact h.ttFresh.len l hl
  have hs := extEnd_spec h hfl hT hl hq (W.g.totalSteps - i) i i (by omega) le_rfl
  simp only at hs
  unfold extLink
  simp only [hlen]
  generalize W.extEnd l (W.link l).ensureTT.ttReal (W.g.totalSteps - i) i i = j at hs ⊢
  have hj : i ≤ j ∧ j < W.g.totalSteps ∧ (¬ Congested W l i → j = i) ∧
      (Congested W l i → (∀ s, i ≤ s → s ≤ j → Congested W l s) ∧ ¬ Congested W l (j + 1)) := by
    rcases hs with ⟨h1, h2⟩ | ⟨h1, h2, h3⟩
    · exact ⟨h1.ge, by omega, fun _ => h1, fun hc => absurd hc h2⟩
    · refine ⟨h1, ?_, fun hc => absurd (h2 i le_rfl h1) hc, fun _ => ⟨h2, h3⟩⟩
      have := (h2 j h1 le_rfl).2.1
      unfold leaves at this
      omega
  rw [if_pos (show i < W.g.totalSteps ∧ j < W.g.totalSteps from ⟨hi, hj.2.1⟩), if_pos hi, exitIdx_eq h hfl hT hl hq hi]
  have e : (if W.g.totalSteps ≤ leaves W l i + 1 then W.g.totalSteps - 1 else leaves W l i + 1) =
      min (leaves W l i + 1) (W.g.totalSteps - 1) := by split <;> omega
  rw [e]
  generalize ho : min (leaves W l i + 1) (W.g.totalSteps - 1) = out
  have hlb := extLead_spec (W.link l).dep out out le_rfl (fun i h1 h2 => by omega)
  refine ⟨j, out, _, hj.1, hj.2.2.1, hj.2.2.2, ho.symm, hlb, ?_⟩
  rw [hfl]
  simp only [id]
  rw [Nat.cast_sub (LastBelow_le hlb)]

/-- The two ways of advancing the time along a route: they differ only when nothing is charged any more. -/
theorem total_late {q q' c : ℕ → ℚ → ℚ} {T : ℚ} {ls : List ℕ} (h1 : ∀ l ∈ ls, ∀ t, 0 ≤ q l t)
    (h2 : ∀ l ∈ ls, ∀ t, 0 ≤ q' l t) (h3 : ∀ l ∈ ls, ∀ t, t < T → q' l t = q l t)
    (h4 : ∀ l ∈ ls, ∀ t, T ≤ t → c l t = 0) (t : ℚ) : total q c ls t = total q' c ls t := by
  have h0 : ∀ (r : ℕ → ℚ → ℚ) (ls : List ℕ), (∀ l ∈ ls, ∀ t, 0 ≤ r l t) → (∀ l ∈ ls, ∀ t, T ≤ t → c l t = 0) →
      ∀ t, T ≤ t → total r c ls t = 0 := by
    intro r ls hr hc
    induction ls with
    | nil => intro t _; rfl
    | cons l ls ih =>
      intro t ht
      have := ih (fun m hm => hr m (by simp [hm])) (fun m hm => hc m (by simp [hm])) (t + r l t)
        (by linarith [hr l (by simp) t])
      unfold total at this ⊢
      simp only [drive, List.map_cons, List.sum_cons]
      rw [this, hc l (by simp) t ht, add_zero]
  induction ls generalizing t with
  | nil => rfl
  | cons l ls ih =>
    by_cases ht : t < T
    · have := ih (fun m hm => h1 m (by simp [hm])) (fun m hm => h2 m (by simp [hm])) (fun m hm => h3 m (by simp [hm]))
        (fun m hm => h4 m (by simp [hm])) (t + q l t)
      unfold total at this ⊢
      simp only [drive, List.map_cons, List.sum_cons]
      rw [h3 l (by simp) t ht, this]
    · rw [h0 q _ h1 h4 t (not_lt.1 ht), h0 q' _ h2 h4 t (not_lt.1 ht)]

theorem total_add (q a b : ℕ → ℚ → ℚ) (ls : List ℕ) (t : ℚ) :
    total q (fun l s => a l s + b l s) ls t = total q a ls t + total q b ls t := by
  induction ls generalizing t with
  | nil => simp [total, drive]
  | cons l ls ih =>
    have := ih (t + q l t)
    unfold total at this ⊢
    simp only [drive, List.map_cons, List.sum_cons]
    rw [this]; ring

theorem extRoute_eq {W : CWorld} (hfl : W.g.fl = id) (ls : List ℕ) (t x : ℚ) :
    W.extRoute ls t x = x + total (fun l t => if ⌊t / W.g.deltaT⌋₊ < (W.link l).ensureTT.ttReal.length then
      (W.link l).ensureTT.ttReal.getD ⌊t / W.g.deltaT⌋₊ 0 else (W.link l).len / (W.link l).vmax)
      (fun l t => W.extLink l ⌊t / W.g.deltaT⌋₊) ls t := by
  induction ls generalizing t x with
  | nil => simp [extRoute, total, drive]
  | cons l ls ih =>
    simp only [extRoute, hfl, id, pyInt_toNat', total, drive, ih, List.map_cons, List.sum_cons]
    rw [add_assoc]

end UX.Cpp
