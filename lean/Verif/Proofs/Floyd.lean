import Verif.Model.Delay
import Verif.Proofs.Basic
import Verif.Proofs.FreeFlow
import Verif.Spec.Delay

/-! The Floyd–Warshall recursion gives least path costs. -/

namespace UX
open World

/-- Edge costs: zeros of the matrix are not edges. -/
def edgeCost (c : ℕ → ℕ → WithTop ℚ) (i j : ℕ) : WithTop ℚ := if c i j = 0 then ⊤ else c i j

/-- Cost of going from `i` through the nodes of a list. -/
def wcost (c : ℕ → ℕ → WithTop ℚ) : ℕ → List ℕ → WithTop ℚ
  | _, [] => 0
  | i, j :: r => edgeCost c i j + wcost c j r

theorem wcost_append (c : ℕ → ℕ → WithTop ℚ) (i k : ℕ) (p s : List ℕ) :
    wcost c i (p ++ k :: s) = wcost c i (p ++ [k]) + wcost c k s := by
  induction p generalizing i with
  | nil => simp [wcost]
  | cons a p ih => simp only [List.cons_append, wcost, ih, add_assoc]

section
variable {c : ℕ → ℕ → WithTop ℚ} (hc : ∀ i j, 0 ≤ c i j)
include hc

theorem edgeCost_nonneg (i j : ℕ) : 0 ≤ edgeCost c i j := by
  unfold edgeCost; split
  · exact le_top
  · exact hc i j

theorem wcost_nonneg (i : ℕ) (r : List ℕ) : 0 ≤ wcost c i r := by
  induction r generalizing i with
  | nil => exact le_rfl
  | cons j r ih => exact add_nonneg (edgeCost_nonneg hc i j) (ih j)

theorem floyd_nonneg (k i j : ℕ) : 0 ≤ floyd c k i j := by
  induction k generalizing i j with
  | zero =>
    unfold floyd; split
    · exact le_rfl
    · exact edgeCost_nonneg hc i j
  | succ k ih => exact le_min (ih i j) (add_nonneg (ih i k) (ih k j))

theorem floyd_diag (k i : ℕ) : floyd c k i i = 0 := by
  induction k generalizing i with
  | zero => simp [floyd]
  | succ k ih =>
    unfold floyd
    rw [ih]
    exact min_eq_left (add_nonneg (floyd_nonneg hc k i k) (floyd_nonneg hc k k i))

theorem floyd_row (k j : ℕ) : floyd c (k + 1) k j = floyd c k k j := by
  rw [floyd, floyd_diag hc, zero_add, min_self]

theorem floyd_le (k i : ℕ) (r : List ℕ) (j : ℕ) (h : ∀ m ∈ r, m < k) :
    floyd c k i j ≤ wcost c i (r ++ [j]) := by
  induction k generalizing i r j with
  | zero =>
    have : r = [] := by
      cases r with
      | nil => rfl
      | cons a r => exact absurd (h a (by simp)) (Nat.not_lt_zero _)
    subst this
    simp only [List.nil_append, wcost, add_zero]
    unfold floyd; split
    · exact edgeCost_nonneg hc i j
    · exact le_rfl
  | succ k ih =>
    generalize hn : r.length = n
    induction n using Nat.strong_induction_on generalizing i r with
    | _ n ihn =>
      by_cases hk : k ∈ r
      · obtain ⟨p, s, hr, hp⟩ := List.eq_append_cons_of_mem hk
        subst hr
        have h1 : floyd c k i k ≤ wcost c i (p ++ [k]) := by
          refine ih i p k fun m hm => ?_
          have h2 := h m (by simp [hm])
          have h3 : m ≠ k := fun e => hp (e ▸ hm)
          omega
        have h2 : floyd c (k + 1) k j ≤ wcost c k (s ++ [j]) :=
          ihn s.length (by rw [← hn, List.length_append, List.length_cons]; omega) k s (fun m hm => h m (by simp [hm])) rfl
        rw [floyd_row hc] at h2
        rw [List.append_assoc, List.cons_append, wcost_append]
        rw [floyd]
        exact (min_le_right _ _).trans (add_le_add h1 h2)
      · rw [floyd]
        refine (min_le_left _ _).trans (ih i r j fun m hm => ?_)
        have h2 := h m hm
        have h3 : m ≠ k := fun e => hk (e ▸ hm)
        omega

end

theorem floyd_sound {c : ℕ → ℕ → WithTop ℚ} (k i j : ℕ) : floyd c k i j = ⊤ ∨ (i = j ∧ floyd c k i j = 0) ∨
    ∃ r, wcost c i (r ++ [j]) = floyd c k i j := by
  induction k generalizing i j with
  | zero =>
    unfold floyd
    by_cases h : i = j
    · exact .inr (.inl ⟨h, if_pos h⟩)
    · right; right
      refine ⟨[], ?_⟩
      simp [wcost, edgeCost, h]
  | succ k ih =>
    rw [floyd]
    rcases min_choice (floyd c k i j) (floyd c k i k + floyd c k k j) with h | h
    · rw [h]; exact ih i j
    · rw [h]
      rcases ih i k with h1 | ⟨rfl, h1⟩ | ⟨p, h1⟩
      · left; rw [h1]; rfl
      · rw [h1, zero_add]; exact ih i j
      · rcases ih k j with h2 | ⟨rfl, h2⟩ | ⟨s, h2⟩
        · left; rw [h2]; exact add_top _
        · right; right
          exact ⟨p, by rw [h2, add_zero, h1]⟩
        · right; right
          refine ⟨p ++ k :: s, ?_⟩
          rw [List.append_assoc, List.cons_append, wcost_append, h1, h2]

/-! ## Matrices filled from links -/

theorem freeAdj_eq (W : World) (f : LinkId → ℚ) (i j : ℕ) :
    ((∀ l < W.nLinks, W.L.startN l = i → W.L.endN l ≠ j) → W.freeAdj f i j = 0) ∧
    ∀ l, W.LastOf l → W.L.startN l = i → W.L.endN l = j →
      W.freeAdj f i j = if W.L.capIn l = 0 then ⊤ else ((f l : ℚ) : WithTop ℚ) := by
  unfold freeAdj LastOf
  generalize W.nLinks = n
  induction n with
  | zero => exact ⟨fun _ => rfl, fun l h => absurd h.1 (Nat.not_lt_zero _)⟩
  | succ n ih =>
    rw [List.range_succ, List.foldl_append, List.foldl_cons, List.foldl_nil]
    generalize hA : (List.range n).foldl (W.freeAdjStep f) (fun _ _ => 0) = A at ih
    by_cases hn : W.L.startN n = i ∧ W.L.endN n = j
    · obtain ⟨rfl, rfl⟩ := hn
      refine ⟨fun h => absurd rfl (h n (Nat.lt_succ_self n) rfl), fun l ⟨h1, h2⟩ h3 h4 => ?_⟩
      have : l = n := by
        by_contra hne
        have hlt : (l : ℕ) < n := Nat.lt_of_le_of_ne (Nat.le_of_lt_succ h1) hne
        exact h2 n hlt (Nat.lt_succ_self n) h3.symm h4.symm
      subst this
      unfold freeAdjStep
      rw [upd_same, upd_same]
    · have hstep : W.freeAdjStep f A n i j = A i j := by
        unfold freeAdjStep
        by_cases h1 : i = W.L.startN n
        · subst h1
          rw [upd_same]
          have h2 : j ≠ W.L.endN n := fun e => hn ⟨rfl, e.symm⟩
          rw [upd_ne _ _ h2]
        · rw [upd_ne _ _ h1]
      rw [hstep]
      refine ⟨fun h => ih.1 fun l hl => h l (Nat.lt_succ_of_lt hl), fun l ⟨h1, h2⟩ h3 h4 => ?_⟩
      have hne : l ≠ n := by rintro rfl; exact hn ⟨h3, h4⟩
      have hlt : (l : ℕ) < n := Nat.lt_of_le_of_ne (Nat.le_of_lt_succ h1) hne
      exact ih.2 l ⟨hlt, fun k hk hkn => h2 k hk (Nat.lt_succ_of_lt hkn)⟩ h3 h4

/-- Between two nodes there is no link or a last one. -/
theorem last_exists (W : World) (i j : ℕ) : (∀ l < W.nLinks, W.L.startN l = i → W.L.endN l ≠ j) ∨
    ∃ l, W.LastOf l ∧ W.L.startN l = i ∧ W.L.endN l = j := by
  unfold LastOf
  generalize W.nLinks = n
  induction n with
  | zero => exact .inl fun l h => absurd h (Nat.not_lt_zero _)
  | succ n ih =>
    by_cases hn : W.L.startN n = i ∧ W.L.endN n = j
    · exact .inr ⟨n, ⟨Nat.lt_succ_self n, fun k hk hkn => absurd hk (Nat.not_lt.mpr (Nat.le_of_lt_succ hkn))⟩, hn⟩
    · rcases ih with h | ⟨l, ⟨h1, h2⟩, h3, h4⟩
      · refine .inl fun l hl hs he => ?_
        rcases Nat.lt_succ_iff_lt_or_eq.mp hl with h5 | rfl
        · exact h l h5 hs he
        · exact hn ⟨hs, he⟩
      · refine .inr ⟨l, ⟨Nat.lt_succ_of_lt h1, fun k hk hkn hs he => ?_⟩, h3, h4⟩
        rcases Nat.lt_succ_iff_lt_or_eq.mp hkn with h5 | rfl
        · exact h2 k hk h5 hs he
        · exact hn ⟨hs.trans h3, he.trans h4⟩

variable {W : World} {f : LinkId → ℚ} (hf : ∀ l < W.nLinks, 0 ≤ f l)
include hf

theorem freeAdj_nonneg (i j : ℕ) : 0 ≤ W.freeAdj f i j := by
  rcases last_exists W i j with h | ⟨l, h1, h2, h3⟩
  · exact ((freeAdj_eq W f i j).1 h).ge
  · rw [(freeAdj_eq W f i j).2 l h1 h2 h3]
    split
    · exact le_top
    · exact WithTop.coe_le_coe.mpr (hf l h1.1)

/-- The edges of the matrix are the counted links. -/
theorem adjCell_iff (i j : ℕ) (q : ℚ) : edgeCost (W.freeAdj f) i j = (q : WithTop ℚ) ↔
    ∃ l, W.Counted f l ∧ W.L.startN l = i ∧ W.L.endN l = j ∧ f l = q := by
  unfold edgeCost Counted
  constructor
  · intro h
    split at h
    · simp at h
    · rename_i h0
      rcases last_exists W i j with h1 | ⟨l, h1, h2, h3⟩
      · exact absurd ((freeAdj_eq W f i j).1 h1) h0
      · rw [(freeAdj_eq W f i j).2 l h1 h2 h3] at h h0
        split at h
        · simp at h
        · rename_i hcap
          rw [if_neg hcap] at h0
          have hq : f l = q := WithTop.coe_eq_coe.mp h
          have h4 : f l ≠ 0 := fun e => h0 (by rw [e]; rfl)
          exact ⟨l, ⟨h1, hcap, lt_of_le_of_ne (hf l h1.1) (Ne.symm h4)⟩, h2, h3, hq⟩
  · rintro ⟨l, ⟨h1, h2, h3⟩, h4, h5, rfl⟩
    rw [(freeAdj_eq W f i j).2 l h1 h4 h5, if_neg h2, if_neg]
    exact fun e => h3.ne' (WithTop.coe_eq_coe.mp e)

theorem wcost_links (i : ℕ) (ls : List LinkId) (hp : PathFrom W.L i ls) (hc : ∀ l ∈ ls, W.Counted f l) :
    wcost (W.freeAdj f) i (ls.map W.L.endN) = ((costSum f ls : ℚ) : WithTop ℚ) := by
  induction ls generalizing i with
  | nil => rfl
  | cons l r ih =>
    have h1 := (adjCell_iff hf i (W.L.endN l) (f l)).mpr ⟨l, hc l (by simp), hp.1, rfl, rfl⟩
    simp only [List.map_cons, wcost]
    rw [h1, ih _ hp.2 fun k hk => hc k (by simp [hk]), ← WithTop.coe_add]
    simp [costSum]

theorem links_of_wcost (i j : ℕ) (r : List ℕ) (q : ℚ) (h : wcost (W.freeAdj f) i (r ++ [j]) = (q : WithTop ℚ)) :
    ∃ ls, PathFrom W.L i ls ∧ pathEnd W.L i ls = j ∧ (∀ l ∈ ls, W.Counted f l) ∧ costSum f ls = q := by
  induction r generalizing i q with
  | nil =>
    simp only [List.nil_append, wcost, add_zero] at h
    obtain ⟨l, h1, h2, h3, h4⟩ := (adjCell_iff hf i j q).mp h
    exact ⟨[l], ⟨h2, trivial⟩, h3, by simpa using h1, by simp [costSum, h4]⟩
  | cons m r ih =>
    simp only [List.cons_append, wcost] at h
    obtain ⟨a, b, ha, hb, hab⟩ := WithTop.add_eq_coe.mp h
    obtain ⟨l, h1, h2, h3, h4⟩ := (adjCell_iff hf i m a).mp ha.symm
    obtain ⟨ls, e1, e2, e3, e4⟩ := ih m b hb.symm
    refine ⟨l :: ls, ⟨h2, h3 ▸ e1⟩, ?_, ?_, ?_⟩
    · cases ls with
      | nil => exact h3.trans e2
      | cons a t => exact e2
    · intro k hk
      rcases List.mem_cons.mp hk with rfl | hk
      · exact h1
      · exact e3 k hk
    · simp only [costSum, List.map_cons, List.sum_cons] at e4 ⊢
      rw [h4, e4, hab]

/-- Least costs: no path of counted links costs less, and the value is attained by one. -/
theorem floyd_links (hN : ∀ l < W.nLinks, W.L.endN l < W.nNodes) (i j : ℕ) :
    (∀ ls, PathFrom W.L i ls → pathEnd W.L i ls = j → (∀ l ∈ ls, W.Counted f l) →
      floyd (W.freeAdj f) W.nNodes i j ≤ ((costSum f ls : ℚ) : WithTop ℚ)) ∧
    ∀ q : ℚ, floyd (W.freeAdj f) W.nNodes i j = (q : WithTop ℚ) →
      ∃ ls, PathFrom W.L i ls ∧ pathEnd W.L i ls = j ∧ (∀ l ∈ ls, W.Counted f l) ∧ costSum f ls = q := by
  refine ⟨fun ls h1 h2 h3 => ?_, fun q hq => ?_⟩
  · rcases List.eq_nil_or_concat ls with rfl | ⟨r, l, rfl⟩
    · obtain rfl : i = j := h2
      rw [floyd_diag (freeAdj_nonneg hf)]
      exact le_rfl
    · have h4 := wcost_links hf i _ h1 h3
      rw [← h4]
      have h5 : W.L.endN l = j := by simpa [pathEnd] using h2
      rw [List.concat_eq_append, List.map_append, List.map_cons, List.map_nil, h5]
      refine floyd_le (freeAdj_nonneg hf) _ _ _ _ fun m hm => ?_
      obtain ⟨k, hk, rfl⟩ := List.mem_map.mp hm
      exact hN k (h3 k (by simp [hk])).1.1
  · rcases floyd_sound (c := W.freeAdj f) W.nNodes i j with h | ⟨rfl, h⟩ | ⟨r, h⟩
    · rw [h] at hq; simp at hq
    · rw [h] at hq
      have : (0 : ℚ) = q := WithTop.coe_eq_coe.mp hq
      exact ⟨[], trivial, rfl, by simp, by simp [costSum, this]⟩
    · exact links_of_wcost hf i j r q (h.trans hq)

end UX
