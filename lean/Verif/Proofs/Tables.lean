import Verif.Model.Tables
import Verif.Proofs.Safe
import Verif.Proofs.Stats

/-! # Lemmas about result tables -/

namespace UX
open World

theorem mapM_map {α β : Type} {f : α → M β} {g : α → β} : ∀ {l : List α}, (∀ a ∈ l, f a = .ok (g a)) →
    l.mapM f = .ok (l.map g) := by
  intro l
  induction l with
  | nil => intro _; rfl
  | cons a t ih =>
    intro h
    rw [List.mapM_cons, h a List.mem_cons_self, ih fun b hb => h b (List.mem_cons_of_mem _ hb)]
    rfl

theorem mapM_error {α β : Type} {f : α → M β} {e : Err} : ∀ {l : List α},
    (∀ a ∈ l, f a = .error e ∨ ∃ b, f a = .ok b) → (∃ a ∈ l, f a = .error e) → l.mapM f = .error e := by
  intro l
  induction l with
  | nil => rintro _ ⟨a, h, -⟩; cases h
  | cons a t ih =>
    rintro h ⟨b, hb, hbe⟩
    rw [List.mapM_cons]
    rcases h a List.mem_cons_self with h1 | ⟨c, h1⟩
    · rw [h1]; rfl
    · rw [List.mem_cons] at hb
      rcases hb with rfl | hb
      · rw [h1] at hbe; cases hbe
      · rw [h1, ih (fun b hb => h b (List.mem_cons_of_mem _ hb)) ⟨b, hb, hbe⟩]; rfl

theorem le_average {xs : List ℚ} {a : ℚ} (hne : xs ≠ []) (h : ∀ x ∈ xs, a ≤ x) : a ≤ average xs := by
  unfold average
  have hl : (0 : ℚ) < xs.length := by exact_mod_cast List.length_pos_of_ne_nil hne
  rw [le_div_iff₀ hl]
  clear hl hne
  induction xs with
  | nil => simp
  | cons x t ih =>
    have h1 := h x List.mem_cons_self
    have h2 := ih fun y hy => h y (List.mem_cons_of_mem _ hy)
    simp only [List.length_cons, List.sum_cons]
    push_cast
    linarith

theorem average_le {xs : List ℚ} {a : ℚ} (hne : xs ≠ []) (h : ∀ x ∈ xs, x ≤ a) : average xs ≤ a := by
  unfold average
  have hl : (0 : ℚ) < xs.length := by exact_mod_cast List.length_pos_of_ne_nil hne
  rw [div_le_iff₀ hl]
  clear hl hne
  induction xs with
  | nil => simp
  | cons x t ih =>
    have h1 := h x List.mem_cons_self
    have h2 := ih fun y hy => h y (List.mem_cons_of_mem _ hy)
    simp only [List.length_cons, List.sum_cons]
    push_cast
    linarith

theorem last!_ok {α : Type} {xs : List α} {a : α} : last! xs = .ok a ↔ xs.head? = some a := by
  cases xs <;> simp [last!]

theorem at!_ok {α : Type} {xs : List α} {i : ℕ} {a : α} : at! xs i = .ok a ↔ xs[i]? = some a := by
  unfold at!
  cases xs[i]? <;> simp

/-- The row of a link whose curves are not empty. -/
theorem linkRow_eq {W : World} {l : LinkId} {a d : ℕ} (ha : (W.L.cumArr l).head? = some a)
    (hd : (W.L.cumDep l).head? = some d) (hu : W.L.u l ≠ 0) (hl : W.L.length l ≠ 0) :
    W.linkRow l = .ok { link := W.L.name l, startN := W.N.name (W.L.startN l), endN := W.N.name (W.L.endN l)
                        volume := d, remain := (a : ℤ) - d, ttFree := W.L.length l / W.L.u l
                        ttAve := if d ≠ 0 then (if (W.L.ttActual l).filter (fun q => decide (0 < q)) ≠ [] then
                          average ((W.L.ttActual l).filter (fun q => decide (0 < q))) else -1) else -1
                        delay := (if d ≠ 0 then (if (W.L.ttActual l).filter (fun q => decide (0 < q)) ≠ [] then
                          average ((W.L.ttActual l).filter (fun q => decide (0 < q))) else -1) else -1) /
                            (W.L.length l / W.L.u l)
                        length := W.L.length l } := by
  unfold linkRow
  rw [last!_ok.2 ha, last!_ok.2 hd]
  have : W.L.length l / W.L.u l ≠ 0 := div_ne_zero hl hu
  simp only [bind, Except.bind]
  rw [if_neg hu, if_neg this]
  rfl

end UX
