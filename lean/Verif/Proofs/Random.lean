import Verif.Model.Random
import Verif.Proofs.Basic

/-! Inversion of computations with random choices. -/

namespace UX
namespace Outcome
variable {α β : Type}

theorem bind {f : RandM α} {g : α → RandM β} {b : β} (h : Outcome (f >>= g) b) :
    ∃ a, Outcome f a ∧ Outcome (g a) b := by
  obtain ⟨r, r', h⟩ := h
  simp only [Bind.bind, StateT.bind, Except.bind] at h
  cases hf : f r with
  | error e => rw [hf] at h; cases h
  | ok p => rw [hf] at h; exact ⟨p.1, ⟨r, p.2, hf⟩, ⟨p.2, r', h⟩⟩

theorem pure {a b : α} (h : Outcome (pure a) b) : a = b := by
  obtain ⟨r, r', h⟩ := h
  simp only [Pure.pure, StateT.pure, Except.pure, Except.ok.injEq, Prod.mk.injEq] at h
  exact h.1

theorem fail {e : Err} {b : α} (h : Outcome (RandM.fail e) b) : False := by
  obtain ⟨r, r', h⟩ := h; cases h

theorem randint {a b x : ℕ} (h : Outcome (RandM.randint a b) x) : a ≤ x ∧ x ≤ b := by
  unfold RandM.randint at h
  split at h
  · exact (fail h).elim
  · obtain ⟨r, -, h⟩ := bind h
    have := pure h
    have := Nat.mod_lt r (show 0 < b - a + 1 by omega)
    omega

theorem random {q : ℚ} (h : Outcome RandM.random q) : 0 ≤ q ∧ q < 1 := by
  obtain ⟨r, -, h⟩ := bind h
  have := pure h
  subst this
  have := Nat.mod_lt r (show 0 < 2 ^ 53 by positivity)
  constructor
  · positivity
  · rw [div_lt_one (by positivity)]; exact_mod_cast this

theorem choice {xs : List α} {a : α} (h : Outcome (RandM.choice xs) a) : a ∈ xs := by
  obtain ⟨r, -, h⟩ := bind h
  split at h
  · next b hb => cases pure h; exact List.mem_of_getElem? hb
  · exact (fail h).elim

theorem sample {xs : List α} {k : ℕ} {ys : List α} (h : Outcome (RandM.sample xs k) ys) :
    ys.length = k ∧ ys.Subperm xs := by
  unfold RandM.sample at h
  split at h
  · exact (fail h).elim
  · obtain ⟨r, r', h⟩ := h
    simp only [Except.ok.injEq, Prod.mk.injEq] at h
    have hp := shuffle_perm r xs
    rw [← h.1]
    refine ⟨by rw [List.length_take, hp.length_eq]; omega, ?_⟩
    exact (List.take_sublist _ _).subperm.trans hp.subperm

theorem loop {f : β → α → RandM β} (I : β → Prop) : ∀ (as : List α) {b b' : β},
    (∀ x, ∀ a ∈ as, ∀ y, I x → Outcome (f x a) y → I y) → I b → Outcome (RandM.loop f b as) b' → I b'
  | [], b, b', _, hb, h => pure h ▸ hb
  | a :: as, b, b', hf, hb, h => by
    obtain ⟨c, hc, h⟩ := bind h
    exact loop I as (fun x a' ha' => hf x a' (List.mem_cons_of_mem _ ha'))
      (hf b a (List.mem_cons_self ..) c hb hc) h

theorem times {f : β → RandM β} (I : β → Prop) : ∀ (n : ℕ) {b b' : β},
    (∀ x y, I x → Outcome (f x) y → I y) → I b → Outcome (RandM.times f n b) b' → I b'
  | 0, b, b', _, hb, h => pure h ▸ hb
  | n + 1, b, b', hf, hb, h => by
    obtain ⟨c, hc, h⟩ := bind h
    exact times I n hf (hf b c hb hc) h

theorem collect {f : α → RandM β} : ∀ (as : List α) {bs : List β}, Outcome (RandM.collect f as) bs →
    List.Forall₂ (fun a b => Outcome (f a) b) as bs
  | [], _, h => by cases pure h; exact .nil
  | a :: as, _, h => by
    obtain ⟨b, hb, h⟩ := bind h
    obtain ⟨bs, hbs, h⟩ := bind h
    cases pure h
    exact .cons hb (collect as hbs)

end Outcome
end UX
