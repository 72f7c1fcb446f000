import Verif.Spec.CppSwap
import Verif.Proofs.CppBasic
import Mathlib.Algebra.Order.BigOperators.Group.List

/-!
# Choice of routes in the C++ traffic assignment
-/

namespace UX.Cpp
open Spec CWorld

theorem swapBody_lt (W : CWorld) (flag : Bool) {s : SwapVar} {c : ℚ} (h : c < s.cur) (ri : ℕ) :
    W.swapBody flag s ri c =
      { changed := if flag then true else s.changed
        idx := if flag then some ri else s.idx
        cur := if flag then c else s.cur
        gap := W.g.fl (s.cur - c)
        pot := W.g.deltaN } := by
  unfold swapBody
  rw [if_pos h, if_pos (Or.inr h)]

theorem swapBody_ge (W : CWorld) (flag : Bool) {s : SwapVar} {c : ℚ} (h : s.cur ≤ c) (ri : ℕ) :
    W.swapBody flag s ri c = s := by
  unfold swapBody
  rw [if_neg (not_lt.2 h)]

theorem swapAlts_true (W : CWorld) (hfl : W.g.fl = id) (cs : List ℚ) : ∀ (s : SwapVar) (ri : ℕ),
    ((∀ c ∈ cs, s.cur ≤ c) ∧ W.swapAlts true s ri cs = s) ∨
    ∃ (i : ℕ) (c : ℚ), cs[i]? = some c ∧ c < s.cur ∧ (∀ x ∈ cs, c ≤ x) ∧
      (∀ (j : ℕ) (x : ℚ), j < i → cs[j]? = some x → c < x) ∧
      (W.swapAlts true s ri cs).changed = true ∧ (W.swapAlts true s ri cs).idx = some (ri + i) ∧
      (W.swapAlts true s ri cs).cur = c ∧ (W.swapAlts true s ri cs).pot = W.g.deltaN ∧
      0 < (W.swapAlts true s ri cs).gap ∧ (W.swapAlts true s ri cs).gap ≤ s.cur - c := by
  induction cs with
  | nil => intro s ri; exact Or.inl ⟨by simp, rfl⟩
  | cons c0 cs ih =>
    intro s ri
    simp only [swapAlts]
    by_cases h : c0 < s.cur
    · rw [swapBody_lt W true h]
      right
      rcases ih { changed := true, idx := some ri, cur := c0, gap := W.g.fl (s.cur - c0), pot := W.g.deltaN } (ri + 1) with
        ⟨h1, h2⟩ | ⟨i, c, h1, h2, h3, h4, h5, h6, h7, h8, h9, h10⟩
      · refine ⟨0, c0, rfl, h, ?_, by simp, ?_⟩
        · intro x hx
          rcases List.mem_cons.1 hx with rfl | hx
          · exact le_refl _
          · exact h1 x hx
        · simp only [if_true]
          rw [h2]
          refine ⟨rfl, rfl, rfl, rfl, ?_, ?_⟩ <;> simp only [hfl, id]
          · linarith
          · exact le_refl _
      · simp only at h2 h10
        refine ⟨i + 1, c, by simpa using h1, by linarith, ?_, ?_, h5, ?_, h7, h8, h9, ?_⟩
        · intro x hx
          rcases List.mem_cons.1 hx with rfl | hx
          · exact h2.le
          · exact h3 x hx
        · intro j x hj hx
          cases j with
          | zero => simp at hx; rw [← hx]; exact h2
          | succ j => exact h4 j x (by omega) (by simpa using hx)
        · simp only [if_true]; rw [h6]; congr 1; omega
        · simp only [if_true]; linarith
    · have h := not_lt.1 h
      rw [swapBody_ge W true h]
      rcases ih s (ri + 1) with ⟨h1, h2⟩ | ⟨i, c, h1, h2, h3, h4, h5, h6, h7, h8, h9, h10⟩
      · left
        refine ⟨?_, h2⟩
        intro x hx
        rcases List.mem_cons.1 hx with rfl | hx
        · exact h
        · exact h1 x hx
      · right
        refine ⟨i + 1, c, by simpa using h1, h2, ?_, ?_, h5, by rw [h6]; congr 1; omega, h7, h8, h9, h10⟩
        · intro x hx
          rcases List.mem_cons.1 hx with rfl | hx
          · linarith
          · exact h3 x hx
        · intro j x hj hx
          cases j with
          | zero => simp at hx; rw [← hx]; linarith
          | succ j => exact h4 j x (by omega) (by simpa using hx)

theorem swapAlts_false (W : CWorld) (hfl : W.g.fl = id) (cs : List ℚ) : ∀ (s : SwapVar) (ri : ℕ),
    ((∀ c ∈ cs, s.cur ≤ c) ∧ W.swapAlts false s ri cs = s) ∨
    ∃ (i : ℕ) (c : ℚ), cs[i]? = some c ∧ c < s.cur ∧ (∀ (j : ℕ) (x : ℚ), i < j → cs[j]? = some x → s.cur ≤ x) ∧
      W.swapAlts false s ri cs = { s with gap := s.cur - c, pot := W.g.deltaN } := by
  induction cs with
  | nil => intro s ri; exact Or.inl ⟨by simp, rfl⟩
  | cons c0 cs ih =>
    intro s ri
    simp only [swapAlts]
    by_cases h : c0 < s.cur
    · rw [swapBody_lt W false h]
      right
      rcases ih { changed := s.changed, idx := s.idx, cur := s.cur, gap := W.g.fl (s.cur - c0), pot := W.g.deltaN } (ri + 1) with
        ⟨h1, h2⟩ | ⟨i, c, h1, h2, h3, h4⟩
      · refine ⟨0, c0, rfl, h, ?_, ?_⟩
        · intro j x hj hx
          cases j with
          | zero => omega
          | succ j => exact h1 x (List.mem_of_getElem? (by simpa using hx))
        · simp only [Bool.false_eq_true, if_false]
          rw [h2, hfl]; rfl
      · refine ⟨i + 1, c, by simpa using h1, h2, ?_, ?_⟩
        · intro j x hj hx
          cases j with
          | zero => omega
          | succ j => exact h3 j x (by omega) (by simpa using hx)
        · simp only [Bool.false_eq_true, if_false]
          rw [h4]
    · have h := not_lt.1 h
      rw [swapBody_ge W false h]
      rcases ih s (ri + 1) with ⟨h1, h2⟩ | ⟨i, c, h1, h2, h3, h4⟩
      · left
        refine ⟨?_, h2⟩
        intro x hx
        rcases List.mem_cons.1 hx with rfl | hx
        · exact h
        · exact h1 x hx
      · right
        refine ⟨i + 1, c, by simpa using h1, h2, ?_, h4⟩
        intro j x hj hx
        cases j with
        | zero => omega
        | succ j => exact h3 j x (by omega) (by simpa using hx)

private theorem map_get {rs : List (List ℕ)} {alt : List ℕ → ℚ} {i : ℕ} {c : ℚ} (h : (rs.map alt)[i]? = some c) :
    ∃ r, rs[i]? = some r ∧ alt r = c := by
  rw [List.getElem?_map] at h
  cases e : rs[i]? with
  | none => rw [e] at h; simp at h
  | some r => rw [e] at h; exact ⟨r, rfl, by simpa using h⟩

/-- What the comparison of costs gives. -/
theorem swapByCost_decision (W : CWorld) (hfl : W.g.fl = id) (rs : List (List ℕ)) (flag : Bool) (own : ℚ)
    (alt : List ℕ → ℚ) (v : ℕ) :
    Decision W.g.deltaN flag (W.traveledRoute v).1 own alt rs (W.swapByCost rs flag own alt v) := by
  cases flag with
  | true =>
    rcases swapAlts_true W hfl (rs.map alt) { changed := false, idx := none, cur := own, gap := 0, pot := 0 } 0 with
      ⟨h1, h2⟩ | ⟨i, c, h1, h2, h3, h4, h5, h6, h7, h8, h9, h10⟩
    · have h1' : ∀ r ∈ rs, own ≤ alt r := fun r hr => h1 _ (List.mem_map_of_mem hr)
      have no : ¬ ∃ r ∈ rs, alt r < own := fun ⟨r, hr, hlt⟩ => absurd (h1' r hr) (not_le.2 hlt)
      unfold swapByCost
      simp only [h2]
      exact ⟨fun _ => by simp, fun _ h => absurd h no, fun _ => by simp, fun h => absurd h no, fun h => by simp at h⟩
    · obtain ⟨r, hr, rfl⟩ := map_get h1
      have yes : ¬ ∀ r ∈ rs, own ≤ alt r := fun h => absurd (h r (List.mem_of_getElem? hr)) (not_le.2 h2)
      unfold swapByCost
      simp only [h5, h6]
      have e : rs.getD (0 + i) [] = r := by rw [List.getD_eq_getElem?_getD, Nat.zero_add, hr]; rfl
      refine ⟨fun h => ?_, fun _ _ => ⟨?_, by simp⟩, fun h => absurd h yes, fun _ => ⟨h8, h9, r, List.mem_of_getElem? hr, h10⟩,
        fun h => by simp at h⟩
      · rcases h with h | h
        · simp at h
        · exact absurd h yes
      · simp only [Option.getD_some]
        rw [e]
        exact ⟨i, hr, fun q hq => h3 _ (List.mem_map_of_mem hq),
          fun j q hj hq => h4 j _ hj (by rw [List.getElem?_map, hq]; rfl)⟩
  | false =>
    rcases swapAlts_false W hfl (rs.map alt) { changed := false, idx := none, cur := own, gap := 0, pot := 0 } 0 with
      ⟨h1, h2⟩ | ⟨i, c, h1, h2, h3, h4⟩
    · have h1' : ∀ r ∈ rs, own ≤ alt r := fun r hr => h1 _ (List.mem_map_of_mem hr)
      have no : ¬ ∃ r ∈ rs, alt r < own := fun ⟨r, hr, hlt⟩ => absurd (h1' r hr) (not_le.2 hlt)
      unfold swapByCost
      simp only [h2]
      exact ⟨fun _ => by simp, fun h => by simp at h, fun _ => by simp, fun h => absurd h no,
        fun _ i r hr hlt => absurd ⟨r, List.mem_of_getElem? hr, hlt⟩ no⟩
    · obtain ⟨r, hr, rfl⟩ := map_get h1
      simp only at h2
      have yes : ¬ ∀ r ∈ rs, own ≤ alt r := fun h => absurd (h r (List.mem_of_getElem? hr)) (not_le.2 h2)
      unfold swapByCost
      simp only [h4]
      refine ⟨fun _ => by simp, fun h => by simp at h, fun h => absurd h yes,
        fun _ => ⟨rfl, by linarith, r, List.mem_of_getElem? hr, le_refl _⟩, fun _ k q hq hlt hl => ?_⟩
      have : i = k := by
        rcases lt_trichotomy i k with h | h | h
        · exact absurd (h3 k _ h (by rw [List.getElem?_map, hq]; rfl)) (not_le.2 hlt)
        · exact h
        · exact absurd (hl i r h hr) (not_le.2 h2)
      subst this
      rw [hr] at hq
      rw [Option.some.inj hq]

theorem swapFixed_decides {W : CWorld} {sets : ℕ → ℕ → Option (List (List ℕ))} {ext : Bool} {v : ℕ} :
    W.swapFixed sets ext v = none ↔ ∃ rs, Decides W sets ext v rs := by
  unfold swapFixed Decides
  by_cases hs : (W.veh v).state = .ended
  · rw [if_neg (by simpa using hs)]
    cases hr : sets (W.veh v).orig (W.veh v).dest with
    | none => simp
    | some rs =>
      simp only
      by_cases hx : ext = true ∧ (W.traveledRoute v).1 ∉ rs
      · rw [if_pos hx]
        cases rs with
        | nil => simp [hs]
        | cons r rs' =>
          simp only [reduceCtorEq, false_iff]
          rintro ⟨q, _, h2, h3⟩
          obtain rfl := Option.some.inj h2
          rcases h3 hx.1 with h | h
          · exact hx.2 h
          · simp at h
      · rw [if_neg hx]
        simp only [true_iff]
        refine ⟨rs, hs, rfl, fun he => Or.inl ?_⟩
        by_contra hn
        exact hx ⟨he, hn⟩
  · rw [if_pos hs]
    simp [hs]

theorem swapVeh_decides {W : CWorld} (hfl : W.g.fl = id) {sets : ℕ → ℕ → Option (List (List ℕ))} {ext flag : Bool} {v : ℕ}
    {rs : List (List ℕ)} (h : Decides W sets ext v rs) (own : ℚ) (alt : List ℕ → ℚ) :
    Decision W.g.deltaN flag (W.traveledRoute v).1 own alt rs (W.swapVeh sets ext flag own alt v) := by
  unfold swapVeh
  rw [swapFixed_decides.2 ⟨rs, h⟩, h.2.1]
  exact swapByCost_decision W hfl rs flag own alt v

theorem swapVeh_fixed {W : CWorld} {sets : ℕ → ℕ → Option (List (List ℕ))} {ext : Bool} {v : ℕ} {r : List ℕ}
    (h : W.swapFixed sets ext v = some r) (flag : Bool) (own : ℚ) (alt : List ℕ → ℚ) :
    (W.swapVeh sets ext flag own alt v).spec = r ∧ (W.swapVeh sets ext flag own alt v).nSwap = 0 ∧
      (W.swapVeh sets ext flag own alt v).pot = 0 ∧ (W.swapVeh sets ext flag own alt v).gap = 0 := by
  unfold swapVeh
  rw [h]
  exact ⟨rfl, rfl, rfl, rfl⟩

/-- The row holds the driven route and its time whatever is decided. -/
theorem swapVeh_actual (W : CWorld) (sets : ℕ → ℕ → Option (List (List ℕ))) (ext flag : Bool) (own : ℚ)
    (alt : List ℕ → ℚ) (v : ℕ) : (W.swapVeh sets ext flag own alt v).actual = (W.traveledRoute v).1 ∧
      (W.swapVeh sets ext flag own alt v).cost = W.actualCost v := by
  unfold swapVeh
  split <;> exact ⟨rfl, rfl⟩

/-- In general rounding: a vehicle is given no route, its own, or one of its set. -/
theorem swapVeh_spec (W : CWorld) (sets : ℕ → ℕ → Option (List (List ℕ))) (ext flag : Bool) (own : ℚ)
    (alt : List ℕ → ℚ) (v : ℕ) :
    ((W.veh v).state ≠ .ended ∧ (W.swapVeh sets ext flag own alt v).spec = []) ∨
    ((W.veh v).state = .ended ∧ ((W.swapVeh sets ext flag own alt v).spec = (W.traveledRoute v).1 ∨
      ∃ rs, sets (W.veh v).orig (W.veh v).dest = some rs ∧ (W.swapVeh sets ext flag own alt v).spec ∈ rs)) := by
  have idx : ∀ (cs : List ℚ) (s : SwapVar) (ri n : ℕ), ri + cs.length = n → (∀ i, s.idx = some i → i < n) →
      ∀ i, (W.swapAlts flag s ri cs).idx = some i → i < n := by
    intro cs
    induction cs with
    | nil => intro s ri n _ h; exact h
    | cons c cs ih =>
      intro s ri n hn h
      simp only [swapAlts]
      simp only [List.length_cons] at hn
      refine ih _ _ n (by omega) ?_
      rcases lt_or_ge c s.cur with hc | hc
      · rw [swapBody_lt W flag hc]
        intro i hi
        simp only at hi
        split at hi
        · rw [← Option.some.inj hi]; omega
        · exact h i hi
      · rw [swapBody_ge W flag hc]; exact h
  unfold swapVeh
  cases hf : W.swapFixed sets ext v with
  | some r =>
    simp only
    unfold swapFixed at hf
    split at hf
    · rename_i hs; exact Or.inl ⟨hs, (Option.some.inj hf).symm⟩
    · rename_i hs
      have hs := not_not.1 hs
      right
      refine ⟨hs, ?_⟩
      cases hr : sets (W.veh v).orig (W.veh v).dest with
      | none => rw [hr] at hf; exact Or.inl (Option.some.inj hf).symm
      | some rs =>
        rw [hr] at hf
        simp only at hf
        split at hf
        · cases rs with
          | nil => simp at hf
          | cons q rs' => exact Or.inr ⟨_, rfl, by rw [← Option.some.inj hf]; simp⟩
        · simp at hf
  | none =>
    obtain ⟨rs, h1, h2, _⟩ := swapFixed_decides.1 hf
    right
    refine ⟨h1, ?_⟩
    rw [h2]
    simp only [Option.getD_some, swapByCost]
    have hi := idx (rs.map alt) { changed := false, idx := none, cur := own, gap := 0, pot := 0 } 0 rs.length (by simp)
      (by simp)
    cases hc : (W.swapAlts flag { changed := false, idx := none, cur := own, gap := 0, pot := 0 } 0 (rs.map alt)).changed with
    | false => left; rfl
    | true =>
      cases he : (W.swapAlts flag { changed := false, idx := none, cur := own, gap := 0, pot := 0 } 0 (rs.map alt)).idx with
      | none => left; rfl
      | some i =>
        right
        refine ⟨rs, rfl, ?_⟩
        have := hi i he
        simp only [Option.getD_some]
        rw [List.getD_eq_getElem?_getD, List.getElem?_eq_getElem this]
        exact List.getElem_mem this

/-- Only the costs of the routes of the set matter. -/
theorem Spec.Decision.congr {N : ℚ} {may : Bool} {driven : List ℕ} {own : ℚ} {c c' : List ℕ → ℚ} {rs : List (List ℕ)}
    {x : SwapRow} (d : Decision N may driven own c rs x) (h : ∀ r ∈ rs, c r = c' r) :
    Decision N may driven own c' rs x := by
  have a : (∀ r ∈ rs, own ≤ c' r) → ∀ r ∈ rs, own ≤ c r := fun g r hr => h r hr ▸ g r hr
  have b : (∃ r ∈ rs, c' r < own) → ∃ r ∈ rs, c r < own := fun ⟨r, hr, g⟩ => ⟨r, hr, by rw [h r hr]; exact g⟩
  refine ⟨fun g => d.keep (g.imp_right a), fun g1 g2 => ?_, fun g => d.content (a g), fun g => ?_,
    fun g i r hr hlt hj => ?_⟩
  · obtain ⟨⟨i, p1, p2, p3⟩, p4⟩ := d.change g1 (b g2)
    have hx := List.mem_of_getElem? p1
    exact ⟨⟨i, p1, fun q hq => by rw [← h _ hx, ← h q hq]; exact p2 q hq,
      fun j q hj hq => by rw [← h _ hx, ← h q (List.mem_of_getElem? hq)]; exact p3 j q hj hq⟩, p4⟩
  · obtain ⟨p1, p2, r, hr, p3⟩ := d.envious (b g)
    exact ⟨p1, p2, r, hr, by rw [← h r hr]; exact p3⟩
  · have hx := List.mem_of_getElem? hr
    rw [← h r hx]
    exact d.last g i r hr (by rw [h r hx]; exact hlt)
      (fun j q hij hq => by rw [h q (List.mem_of_getElem? hq)]; exact hj j q hij hq)

/-! ## Sums -/

theorem sum_nonneg_zero {α : Type} (f : α → ℚ) (xs : List α) (h : ∀ x ∈ xs, 0 ≤ f x) :
    0 ≤ (xs.map f).sum ∧ ((xs.map f).sum = 0 ↔ ∀ x ∈ xs, f x = 0) := by
  induction xs with
  | nil => simp
  | cons x xs ih =>
    obtain ⟨i1, i2⟩ := ih (fun y hy => h y (by simp [hy]))
    have hx := h x (by simp)
    rw [List.map_cons, List.sum_cons]
    refine ⟨by linarith, fun e => ?_, fun g => ?_⟩
    · intro y hy
      rcases List.mem_cons.1 hy with rfl | hy
      · linarith
      · exact i2.1 (by linarith) y hy
    · rw [g x (by simp), i2.2 (fun y hy => g y (by simp [hy])), add_zero]

theorem swapTotal_eq {W : CWorld} (hfl : W.g.fl = id) (f : SwapRow → ℚ) (rows : List SwapRow) :
    W.swapTotal f rows = (rows.map f).sum := by
  have : ∀ (rows : List SwapRow) (s : ℚ), rows.foldl (fun s r => W.g.fl (s + f r)) s = s + (rows.map f).sum := by
    intro rows
    induction rows with
    | nil => intro s; simp
    | cons r rs ih => intro s; rw [List.foldl_cons, ih, hfl]; simp [add_assoc]
  unfold swapTotal
  rw [this, zero_add]

/-! ## The rows of a day -/

/-- The number of draws made before vehicle `k`. -/
def drawsBefore (W : CWorld) (sets : ℕ → ℕ → Option (List (List ℕ))) (ext : Bool) (vs : List ℕ) : ℕ :=
  (vs.filter (fun v => W.swapFixed sets ext v = none)).length

theorem dueRows_get (W : CWorld) (sets : ℕ → ℕ → Option (List (List ℕ))) (p : ℚ) (ext : Bool) (vs : List ℕ) :
    ∀ (u : ℕ → ℚ), (W.dueRows sets p ext vs u).length = vs.length ∧
    ∀ (k v : ℕ), vs[k]? = some v → (W.dueRows sets p ext vs u)[k]? = some (W.swapVehDue sets ext
      (decide (W.swapFixed sets ext v = none ∧ u (drawsBefore W sets ext (vs.take k)) < p)) v) := by
  induction vs with
  | nil => intro u; exact ⟨rfl, by simp⟩
  | cons w vs ih =>
    intro u
    simp only [dueRows]
    by_cases h : W.swapFixed sets ext w = none
    · rw [if_pos h]
      obtain ⟨h1, h2⟩ := ih (fun k => u (k + 1))
      refine ⟨by simp [h1], fun k v hk => ?_⟩
      cases k with
      | zero =>
        obtain rfl : w = v := by simpa using hk
        simp [h, drawsBefore]
      | succ k =>
        rw [List.getElem?_cons_succ, h2 k v (by simpa using hk),
          show drawsBefore W sets ext ((w :: vs).take (k + 1)) = drawsBefore W sets ext (vs.take k) + 1 by
            simp [drawsBefore, h]]
    · rw [if_neg h]
      obtain ⟨h1, h2⟩ := ih u
      refine ⟨by simp [h1], fun k v hk => ?_⟩
      cases k with
      | zero =>
        obtain rfl : w = v := by simpa using hk
        simp [h, drawsBefore]
      | succ k =>
        rw [List.getElem?_cons_succ, h2 k v (by simpa using hk),
          show drawsBefore W sets ext ((w :: vs).take (k + 1)) = drawsBefore W sets ext (vs.take k) by
            simp [drawsBefore, h]]

theorem swapDue_eq (W : CWorld) (sets : ℕ → ℕ → Option (List (List ℕ))) (p : ℚ) (ext : Bool) (u : ℕ → ℚ) :
    W.swapDue sets p ext u = (List.range W.g.nVehs).map (fun v => W.swapVehDue sets ext
      (decide (W.swapFixed sets ext v = none ∧ u (drawsBefore W sets ext (List.range v)) < p)) v) := by
  obtain ⟨h1, h2⟩ := dueRows_get W sets p ext (List.range W.g.nVehs) u
  refine List.ext_getElem? (fun v => ?_)
  by_cases hv : v < W.g.nVehs
  · have := h2 v v (by rw [List.getElem?_range hv])
    rw [List.take_range, min_eq_left hv.le] at this
    unfold swapDue
    rw [this, List.getElem?_map, List.getElem?_range hv]
    rfl
  · unfold swapDue
    rw [List.getElem?_eq_none (by rw [h1, List.length_range]; omega),
      List.getElem?_eq_none (by rw [List.length_map, List.length_range]; omega)]

/-- The statistics of a day. -/
theorem day_totals {W : CWorld} (hfl : W.g.fl = id) (hN : 0 < W.g.deltaN) {sets : ℕ → ℕ → Option (List (List ℕ))}
    {ext : Bool} (flag : ℕ → Bool) (own : ℕ → ℚ) (alt : ℕ → List ℕ → ℚ) :
    0 ≤ W.swapTotal SwapRow.nSwap ((List.range W.g.nVehs).map (fun v => W.swapVeh sets ext (flag v) (own v) (alt v) v)) ∧
    W.swapTotal SwapRow.nSwap ((List.range W.g.nVehs).map (fun v => W.swapVeh sets ext (flag v) (own v) (alt v) v)) ≤
      W.swapTotal SwapRow.pot ((List.range W.g.nVehs).map (fun v => W.swapVeh sets ext (flag v) (own v) (alt v) v)) ∧
    (W.swapTotal SwapRow.pot ((List.range W.g.nVehs).map (fun v => W.swapVeh sets ext (flag v) (own v) (alt v) v)) = 0 ↔
      ∀ v, v < W.g.nVehs → ∀ rs, Decides W sets ext v rs → ∀ r ∈ rs, own v ≤ alt v r) ∧
    (W.swapTotal SwapRow.gap ((List.range W.g.nVehs).map (fun v => W.swapVeh sets ext (flag v) (own v) (alt v) v)) = 0 ↔
      W.swapTotal SwapRow.pot ((List.range W.g.nVehs).map (fun v => W.swapVeh sets ext (flag v) (own v) (alt v) v)) = 0) := by
  have row : ∀ v, (0 ≤ (W.swapVeh sets ext (flag v) (own v) (alt v) v).nSwap) ∧
      (W.swapVeh sets ext (flag v) (own v) (alt v) v).nSwap ≤ (W.swapVeh sets ext (flag v) (own v) (alt v) v).pot ∧
      0 ≤ (W.swapVeh sets ext (flag v) (own v) (alt v) v).gap ∧
      ((W.swapVeh sets ext (flag v) (own v) (alt v) v).pot = 0 ↔ ∀ rs, Decides W sets ext v rs → ∀ r ∈ rs, own v ≤ alt v r) ∧
      ((W.swapVeh sets ext (flag v) (own v) (alt v) v).gap = 0 ↔ (W.swapVeh sets ext (flag v) (own v) (alt v) v).pot = 0) := by
    intro v
    rcases hfx : W.swapFixed sets ext v with _ | r
    · obtain ⟨rs, hd⟩ := swapFixed_decides.1 hfx
      have d := swapVeh_decides hfl (flag := flag v) hd (own v) (alt v)
      have uniq : ∀ rs', Decides W sets ext v rs' → rs' = rs := fun rs' h' => Option.some.inj (h'.2.1.symm.trans hd.2.1)
      by_cases hc : ∀ r ∈ rs, own v ≤ alt v r
      · obtain ⟨_, k2⟩ := d.keep (Or.inr hc)
        obtain ⟨c1, c2⟩ := d.content hc
        rw [k2, c1, c2]
        exact ⟨le_refl _, le_refl _, le_refl _, ⟨fun _ rs' h' => uniq rs' h' ▸ hc, fun _ => rfl⟩, Iff.rfl⟩
      · have hc' := hc
        push Not at hc'
        obtain ⟨c1, c2, _⟩ := d.envious hc'
        have hn : (W.swapVeh sets ext (flag v) (own v) (alt v) v).nSwap = 0 ∨
            (W.swapVeh sets ext (flag v) (own v) (alt v) v).nSwap = W.g.deltaN := by
          cases hf : flag v with
          | false => rw [hf] at d; exact Or.inl (d.keep (Or.inl rfl)).2
          | true => rw [hf] at d; exact Or.inr (d.change rfl hc').2
        rw [c1]
        refine ⟨by rcases hn with e | e <;> rw [e]; exact hN.le, by rcases hn with e | e <;> rw [e]; exact hN.le, c2.le,
          ⟨fun e => absurd e hN.ne', fun g => absurd (g rs hd) hc⟩, ⟨fun e => absurd e c2.ne', fun e => absurd e hN.ne'⟩⟩
    · obtain ⟨_, f2, f3, f4⟩ := swapVeh_fixed hfx (flag v) (own v) (alt v)
      rw [f2, f3, f4]
      refine ⟨le_refl _, le_refl _, le_refl _, ⟨fun _ rs hd => ?_, fun _ => rfl⟩, Iff.rfl⟩
      have := swapFixed_decides.2 ⟨rs, hd⟩
      rw [hfx] at this
      simp at this
  rw [swapTotal_eq hfl, swapTotal_eq hfl, swapTotal_eq hfl]
  simp only [List.map_map]
  have t1 := sum_nonneg_zero (SwapRow.nSwap ∘ fun v => W.swapVeh sets ext (flag v) (own v) (alt v) v) (List.range W.g.nVehs)
    (fun v _ => (row v).1)
  have t2 := sum_nonneg_zero (SwapRow.pot ∘ fun v => W.swapVeh sets ext (flag v) (own v) (alt v) v) (List.range W.g.nVehs)
    (fun v _ => (row v).1.trans (row v).2.1)
  have t3 := sum_nonneg_zero (SwapRow.gap ∘ fun v => W.swapVeh sets ext (flag v) (own v) (alt v) v) (List.range W.g.nVehs)
    (fun v _ => (row v).2.2.1)
  refine ⟨t1.1, List.sum_le_sum (fun v _ => (row v).2.1), ?_, ?_⟩
  · rw [t2.2]
    exact ⟨fun g v hv => (row v).2.2.2.1.1 (g v (List.mem_range.2 hv)),
      fun g v hv => (row v).2.2.2.1.2 (g v (List.mem_range.1 hv))⟩
  · rw [t2.2, t3.2]
    exact ⟨fun g v hv => (row v).2.2.2.2.1 (g v hv), fun g v hv => (row v).2.2.2.2.2 (g v hv)⟩

/-! ## Enforcing -/

theorem enforceFrom_spec (rs : List (List ℕ)) : ∀ (W : CWorld) (i : ℕ),
    (W.enforceFrom i rs).g = W.g ∧ (W.enforceFrom i rs).link = W.link ∧ (W.enforceFrom i rs).node = W.node ∧
    ∀ v, ((W.enforceFrom i rs).veh v = W.veh v ∧
        (v < W.g.nVehs → i ≤ v → ∀ r, rs[v - i]? = some r → r = [])) ∨
      ∃ r, i ≤ v ∧ v < W.g.nVehs ∧ rs[v - i]? = some r ∧ r ≠ [] ∧
        (W.enforceFrom i rs).veh v = { W.veh v with
          route := r.filter (fun l => decide (l < W.g.nLinks))
          prefer := r.filter (fun l => decide (l < W.g.nLinks)) } := by
  induction rs with
  | nil => intro W i; exact ⟨rfl, rfl, rfl, fun v => Or.inl ⟨rfl, by simp⟩⟩
  | cons r rs ih =>
    intro W i
    simp only [enforceFrom]
    by_cases hi : i < W.g.nVehs
    · rw [if_pos hi]
      by_cases hr : r = []
      · rw [if_pos hr]
        obtain ⟨h1, h2, h3, h4⟩ := ih W (i + 1)
        refine ⟨h1, h2, h3, fun v => ?_⟩
        rcases h4 v with ⟨p1, p2⟩ | ⟨q, p1, p2, p3, p4, p5⟩
        · left
          refine ⟨p1, fun hv hiv q hq => ?_⟩
          rcases Nat.eq_or_lt_of_le hiv with e | e
          · subst e; simp at hq; rw [← hq]; exact hr
          · refine p2 hv e q ?_
            rw [show v - i = (v - (i + 1)) + 1 by omega, List.getElem?_cons_succ] at hq
            exact hq
        · right
          refine ⟨q, by omega, p2, ?_, p4, p5⟩
          rw [show v - i = (v - (i + 1)) + 1 by omega, List.getElem?_cons_succ]
          exact p3
      · rw [if_neg hr]
        obtain ⟨h1, h2, h3, h4⟩ := ih (W.edit (.enforce i (r.filter (fun l => decide (l < W.g.nLinks))))) (i + 1)
        refine ⟨h1, h2, h3, fun v => ?_⟩
        rcases h4 v with ⟨p1, p2⟩ | ⟨q, p1, p2, p3, p4, p5⟩
        · by_cases e : v = i
          · subst e
            right
            refine ⟨r, le_refl _, hi, by simp, hr, ?_⟩
            rw [p1, edit, setV_veh, if_pos rfl]
          · left
            refine ⟨by rw [p1, edit, setV_veh, if_neg e], fun hv hiv q hq => ?_⟩
            refine p2 hv (by omega) q ?_
            rw [show v - i = (v - (i + 1)) + 1 by omega, List.getElem?_cons_succ] at hq
            exact hq
        · right
          refine ⟨q, by omega, p2, ?_, p4, ?_⟩
          · rw [show v - i = (v - (i + 1)) + 1 by omega, List.getElem?_cons_succ]
            exact p3
          · rw [p5, edit, setV_veh, if_neg (show ¬ v = i by omega)]
            rfl
    · rw [if_neg hi]
      exact ⟨rfl, rfl, rfl, fun v => Or.inl ⟨rfl, fun hv hiv => by omega⟩⟩

theorem enforceFrom_planned (rs : List (List ℕ)) : ∀ {W : CWorld} (i v : ℕ), Planned v W → (W.veh v).state = .home →
    Planned v (W.enforceFrom i rs) := by
  induction rs with
  | nil => intro W i v h _; exact h
  | cons r rs ih =>
    intro W i v h hs
    simp only [enforceFrom]
    split
    · split
      · exact ih _ _ h hs
      · refine ih _ _ (h.step (CStep.edit _ _) (Or.inr (Or.inl hs))) ?_
        rw [edit, setV_veh]
        split
        · rename_i e; subst e; exact hs
        · exact hs
    · exact h

theorem enforceFrom_reach (rs : List (List ℕ)) : ∀ {W : CWorld} (i : ℕ), CReach W → CReach (W.enforceFrom i rs) := by
  induction rs with
  | nil => intro W i h; exact h
  | cons r rs ih =>
    intro W i h
    simp only [enforceFrom]
    split
    · split
      · exact ih _ h
      · exact ih _ (h.step (CStep.edit _ _))
    · exact h

end UX.Cpp
