import Verif.Proofs.Api
import Verif.Spec.Demand
import Mathlib.Algebra.Order.Floor.Ring
import Mathlib.Tactic.Linarith
import Mathlib.Tactic.FieldSimp
import Mathlib.Tactic.Ring

/-!
# The demand generator
-/

namespace UX
open World

theorem toString_nat_inj {a b : ℕ} (h : toString a = toString b) : a = b := by
  rw [Nat.toString_eq_ofList_toDigits, Nat.toString_eq_ofList_toDigits] at h
  have h2 : Nat.toDigits 10 a = Nat.toDigits 10 b := String.ofList_injective h
  rw [← Nat.ofDigitChars_toDigits (b := 10) (n := a) (by omega) (by omega), h2,
    Nat.ofDigitChars_toDigits (by omega) (by omega)]

/-- What a generator step keeps. -/
structure GFrame (W W' : World) : Prop where
  cfg : W'.cfg = W.cfg
  nodes : W'.nNodes = W.nNodes
  dict : W'.nodeDict = W.nodeDict
  free : NamesFree W → NamesFree W'

theorem GFrame.refl (W : World) : GFrame W W := ⟨rfl, rfl, rfl, id⟩

theorem GFrame.trans {A B C : World} (h : GFrame A B) (k : GFrame B C) : GFrame A C :=
  ⟨k.cfg.trans h.cfg, k.nodes.trans h.nodes, k.dict.trans h.dict, fun x => k.free (h.free x)⟩

theorem GFrame.getNode {W W' : World} (h : GFrame W W') (r : Ref) : W'.getNode r = W.getNode r := by
  cases r <;> simp [World.getNode, h.nodes, h.dict]

theorem Generated.refl (o d) (W : World) : Generated o d [] W W :=
  ⟨rfl, by simp, fun _ _ => ⟨rfl, rfl, rfl, rfl, rfl⟩, fun j t h => by simp at h⟩

theorem Generated.trans {o d s t} {A B C : World} (h : Generated o d s A B)
    (k : Generated o d t B C) : Generated o d (s ++ t) A C := by
  refine ⟨by rw [k.number, h.number, List.length_append, Nat.add_assoc], ?_, ?_, ?_⟩
  · rw [k.living, h.living, h.number, List.length_append, List.range_add]
    simp [Nat.add_assoc]
  · intro i hi
    obtain ⟨a1, a2, a3, a4, a5⟩ := h.old i hi
    obtain ⟨b1, b2, b3, b4, b5⟩ := k.old i (by have := h.number; omega)
    exact ⟨b1.trans a1, b2.trans a2, b3.trans a3, b4.trans a4, b5.trans a5⟩
  · intro j x hx
    rcases Nat.lt_or_ge j s.length with hj | hj
    · rw [List.getElem?_append_left hj] at hx
      obtain ⟨a1, a2, a3, a4, a5⟩ := h.new j x hx
      obtain ⟨b1, b2, b3, b4, b5⟩ := k.old (A.nVeh + j) (by have := h.number; omega)
      exact ⟨b1.trans a1, b2.trans a2, b3.trans a3, b4.trans a4, b5.trans a5⟩
    · rw [List.getElem?_append_right hj] at hx
      have := k.new _ x hx
      rwa [show B.nVeh + (j - s.length) = A.nVeh + j by have := h.number; omega] at this

theorem addVehicle_generated {W W' : World} {o d : Ref} {t : ℤ}
    (h : W.addVehicle { orig := o, dest := some d, dep := .step t } = .ok W') :
    ∃ on dn, W.getNode o = .ok on ∧ W.getNode d = .ok dn ∧ Generated on dn [t] W W' ∧ GFrame W W' := by
  obtain ⟨on, d', dep, pref, cache, lp, la, nm, h1, h2, h3, -, -, -, h4, h5, rfl⟩ := addVehicle_ok h
  obtain ⟨dn, h2, rfl⟩ := h2
  dsimp only at h3 h4
  subst h3 h4
  refine ⟨on, dn, h1, h2, ⟨rfl, by simp [addVehRes], ?_, ?_⟩, ⟨rfl, rfl, rfl, ?_⟩⟩
  · intro i hi
    have : i ≠ W.nVeh := Nat.ne_of_lt hi
    simp [addVehRes, upd_ne _ _ this]
  · intro j x hx
    rcases j with _ | j
    · simp at hx; subst hx
      simp [addVehRes, upd_same]
    · simp at hx
  · intro hf i hi
    have hi' : W.nVeh + 1 ≤ i := hi
    show upd W.vehDict (toString W.nVeh) (some W.nVeh) (toString i) = none
    rw [upd_ne _ _ (fun e => by have := toString_nat_inj e; omega)]
    exact hf i (by omega)

theorem addVehicle_generates {W : World} {o d : Ref} {t : ℤ} {on dn}
    (ho : W.getNode o = .ok on) (hd : W.getNode d = .ok dn) (hf : NamesFree W) :
    ∃ W', W.addVehicle { orig := o, dest := some d, dep := .step t } = .ok W' := by
  have := hf W.nVeh le_rfl
  unfold World.addVehicle
  rw [ho]
  rcases hc : W.prefCache with _ | k <;>
  simp [bind, Except.bind, pure, Except.pure, Except.map, hd, Nat.toString_eq_repr] at this ⊢ <;> simp [this]

theorem floor_sub_one (f n : ℚ) (hn : n ≠ 0) : ⌊(f - n) / n⌋ = ⌊f / n⌋ - 1 := by
  rw [sub_div, div_self hn]; exact Int.floor_sub_one _

/-- The inner loop, when it does not raise an exception. -/
theorem demandWhile_generated {o d : Ref} {t : ℤ} {on dn} : ∀ {k : ℕ} {W : World} {f : ℚ},
    W.cfg.fl = id → 0 < W.cfg.deltan → 0 ≤ f → W.getNode o = .ok on → W.getNode d = .ok dn →
    ∀ {W' f'}, demandWhile o d t k W f = .ok (W', f') →
    Generated on dn (List.replicate ⌊f / W.cfg.deltan⌋.toNat t) W W' ∧ GFrame W W' ∧
      f' = f - ⌊f / W.cfg.deltan⌋ * W.cfg.deltan := by
  intro k
  have stop : ∀ {W : World} {f : ℚ}, 0 < W.cfg.deltan → 0 ≤ f → ¬ (W.dn : ℚ) ≤ f →
      ⌊f / W.cfg.deltan⌋ = 0 := by
    intro W f hn hf hc
    have hn' : (0:ℚ) < (W.cfg.deltan : ℚ) := by exact_mod_cast hn
    rw [Int.floor_eq_zero_iff, Set.mem_Ico, div_lt_one hn']
    exact ⟨div_nonneg hf hn'.le, lt_of_not_ge hc⟩
  induction k with
  | zero =>
    intro W f hfl hn hf ho hd W' f' h
    unfold demandWhile at h
    split at h
    · cases h
    · rename_i hc
      cases h
      rw [stop hn hf hc]
      exact ⟨by simpa using Generated.refl on dn W, GFrame.refl W, by simp⟩
  | succ k ih =>
    intro W f hfl hn hf ho hd W' f' h
    unfold demandWhile at h
    split at h
    · rename_i hc
      have hc' : (W.cfg.deltan : ℚ) ≤ f := hc
      have hn' : (0:ℚ) < (W.cfg.deltan : ℚ) := by exact_mod_cast hn
      split at h
      · rename_i W1 h1
        obtain ⟨on', dn', e1, e2, g, fr⟩ := addVehicle_generated h1
        obtain rfl : on = on' := by rw [ho] at e1; exact Except.ok.inj e1
        obtain rfl : dn = dn' := by rw [hd] at e2; exact Except.ok.inj e2
        have hx : W.fl (f - W.dn) = f - W.cfg.deltan := by simp [World.fl, hfl, World.dn]
        rw [hx] at h
        obtain ⟨g2, fr2, e⟩ := ih (by rw [fr.cfg]; exact hfl) (by rw [fr.cfg]; exact hn)
          (by linarith) (by rw [fr.getNode]; exact ho) (by rw [fr.getNode]; exact hd) h
        rw [fr.cfg, floor_sub_one _ _ (ne_of_gt hn')] at g2 e
        have h1f : 1 ≤ ⌊f / (W.cfg.deltan : ℚ)⌋ := by
          rw [Int.le_floor, le_div_iff₀ hn']; simpa using hc'
        refine ⟨?_, fr.trans fr2, ?_⟩
        · have := g.trans g2
          rwa [List.singleton_append, ← List.replicate_succ,
            show (⌊f / (W.cfg.deltan : ℚ)⌋ - 1).toNat + 1 = ⌊f / (W.cfg.deltan : ℚ)⌋.toNat by omega] at this
        · rw [e]; push_cast; ring
      · cases h
    · rename_i hc
      cases h
      rw [stop hn hf hc]
      exact ⟨by simpa using Generated.refl on dn W, GFrame.refl W, by simp⟩

/-- The inner loop does not fail: enough fuel, known nodes, free names. -/
theorem demandWhile_total {o d : Ref} {t : ℤ} {on dn} : ∀ {k : ℕ} {W : World} {f : ℚ},
    W.cfg.fl = id → 0 < W.cfg.deltan → ⌊f / W.cfg.deltan⌋.toNat ≤ k →
    W.getNode o = .ok on → W.getNode d = .ok dn → NamesFree W →
    ∃ W' f', demandWhile o d t k W f = .ok (W', f') := by
  intro k
  induction k with
  | zero =>
    intro W f hfl hn hk ho hd hf
    have hn' : (0:ℚ) < (W.cfg.deltan : ℚ) := by exact_mod_cast hn
    unfold demandWhile
    rw [if_neg]
    · exact ⟨_, _, rfl⟩
    · intro hc
      have hc' : (W.cfg.deltan : ℚ) ≤ f := hc
      have h1f : 1 ≤ ⌊f / (W.cfg.deltan : ℚ)⌋ := by
        rw [Int.le_floor, le_div_iff₀ hn']; simpa using hc'
      omega
  | succ k ih =>
    intro W f hfl hn hk ho hd hf
    have hn' : (0:ℚ) < (W.cfg.deltan : ℚ) := by exact_mod_cast hn
    unfold demandWhile
    split
    · obtain ⟨W1, h1⟩ := addVehicle_generates (t := t) ho hd hf
      obtain ⟨_, _, _, _, _, fr⟩ := addVehicle_generated h1
      rw [h1]
      have hx : W.fl (f - W.dn) = f - W.cfg.deltan := by simp [World.fl, hfl, World.dn]
      simp only [hx]
      refine ih (by rw [fr.cfg]; exact hfl) (by rw [fr.cfg]; exact hn) ?_
        (by rw [fr.getNode]; exact ho) (by rw [fr.getNode]; exact hd) (fr.free hf)
      rw [fr.cfg, floor_sub_one _ _ (ne_of_gt hn')]
      omega
    · exact ⟨_, _, rfl⟩

/-- The departure steps, as the loop produces them: `c` is what has been generated in `i` steps. -/
def depSteps (q : ℚ) (a : ℤ) : ℕ → List ℤ
  | 0 => []
  | k + 1 => depSteps q a k ++ List.replicate (⌊((k + 1 : ℕ) : ℚ) * q⌋ - ⌊(k : ℚ) * q⌋).toNat (a + k)

theorem depSteps_spread {q : ℚ} (hq : 0 ≤ q) (a : ℤ) (n : ℕ) : Spread a (a + n) q (depSteps q a n) := by
  have win : ∀ n : ℕ, ∀ t ∈ depSteps q a n, a ≤ t ∧ t < a + n := by
    intro n
    induction n with
    | zero => simp [depSteps]
    | succ k ih =>
      intro t ht
      rw [depSteps, List.mem_append] at ht
      rcases ht with ht | ht
      · have := ih t ht; push_cast; omega
      · rw [List.mem_replicate] at ht; push_cast; omega
  refine ⟨win n, ?_, ?_⟩
  · induction n with
    | zero => simp [depSteps]
    | succ k ih =>
      rw [depSteps, List.pairwise_append]
      refine ⟨ih, ?_, ?_⟩
      · rw [List.pairwise_replicate]; right; exact le_rfl
      · intro x hx y hy
        rw [List.mem_replicate] at hy
        have := win k x hx; omega
  · have len : ∀ k : ℕ, ((depSteps q a k).length : ℤ) = ⌊(k : ℚ) * q⌋ := by
      intro k
      induction k with
      | zero => simp [depSteps]
      | succ k ih =>
        have : ⌊(k : ℚ) * q⌋ ≤ ⌊((k + 1 : ℕ) : ℚ) * q⌋ := by
          apply Int.floor_le_floor; push_cast; linarith
        rw [depSteps, List.length_append, List.length_replicate]
        push_cast [ih] at this ⊢
        rw [Int.toNat_of_nonneg (by omega)]; ring
    intro k hk
    have hk : k ≤ n := by omega
    rw [← len k]
    congr 1
    induction n with
    | zero => obtain rfl : k = 0 := by omega
              simp [depSteps]
    | succ n ih =>
      rcases Nat.lt_or_ge n k with h | h
      · obtain rfl : k = n + 1 := by omega
        rw [List.filter_eq_self.2]
        intro t ht
        have := win _ t ht
        simpa using this.2
      · rw [depSteps, List.filter_append, List.length_append, ih (by omega) h]
        have : List.filter (fun t => decide (t < a + (k:ℤ)))
            (List.replicate (⌊((n + 1 : ℕ) : ℚ) * q⌋ - ⌊(n : ℚ) * q⌋).toNat (a + (n:ℤ))) = [] := by
          rw [List.filter_eq_nil_iff]
          intro t ht
          rw [List.mem_replicate] at ht
          simp; omega
        rw [this]; simp

theorem pyRange_succ (a : ℤ) (n : ℕ) : pyRange a (a + (n + 1 : ℕ)) = pyRange a (a + n) ++ [a + n] := by
  unfold pyRange
  rw [show (a + ((n + 1 : ℕ) : ℤ) - a).toNat = n + 1 by push_cast; omega,
    show (a + (n : ℤ) - a).toNat = n by omega, List.range_succ]
  simp

theorem demandLoop_append {o d : Ref} {flow : ℚ} : ∀ {xs ys : List ℤ} {W : World} {f : ℚ},
    demandLoop o d flow (xs ++ ys) W f =
      (match demandLoop o d flow xs W f with
       | .ok (W', f') => demandLoop o d flow ys W' f'
       | .error e => .error e) := by
  intro xs
  induction xs with
  | nil => intro ys W f; simp [demandLoop]
  | cons t ts ih =>
    intro ys W f
    rw [List.cons_append, demandLoop, demandLoop]
    split
    · rw [ih]
    · rfl

/-- The platoons that one step brings. -/
def World.perStep (W : World) (flow : ℚ) : ℚ := flow * W.cfg.deltat / W.cfg.deltan

theorem loop_step {flow dt f q : ℚ} {n : ℕ} (hn : 0 < n) {k : ℕ} (hq : q = flow * dt / n)
    (hf : f = ((k : ℚ) * q - ⌊(k : ℚ) * q⌋) * n) :
    ⌊(f + flow * dt) / n⌋ = ⌊((k + 1 : ℕ) : ℚ) * q⌋ - ⌊(k : ℚ) * q⌋ ∧
    f + flow * dt - ⌊(f + flow * dt) / n⌋ * n =
      (((k + 1 : ℕ) : ℚ) * q - ⌊((k + 1 : ℕ) : ℚ) * q⌋) * n := by
  have hn' : (n : ℚ) ≠ 0 := by exact_mod_cast Nat.ne_of_gt hn
  have e1 : flow * dt = q * n := by rw [hq]; field_simp
  have e2 : (f + flow * dt) / n = ((k + 1 : ℕ) : ℚ) * q - (⌊(k : ℚ) * q⌋ : ℤ) := by
    rw [e1, hf]; field_simp; push_cast; ring
  have e3 : ⌊(f + flow * dt) / n⌋ = ⌊((k + 1 : ℕ) : ℚ) * q⌋ - ⌊(k : ℚ) * q⌋ := by
    rw [e2]; exact Int.floor_sub_intCast _ _
  refine ⟨e3, ?_⟩
  rw [e3, e1, hf]; push_cast; ring

theorem demandLoop_generated {o d : Ref} {flow : ℚ} {on dn} {a : ℤ} {W : World} {n : ℕ}
    (hfl : W.cfg.fl = id) (hn : 0 < W.cfg.deltan) (hdt : 0 ≤ W.cfg.deltat) (hf : 0 ≤ flow)
    (ho : W.getNode o = .ok on) (hd : W.getNode d = .ok dn) {W' f'}
    (h : demandLoop o d flow (pyRange a (a + n)) W 0 = .ok (W', f')) :
    Generated on dn (depSteps (W.perStep flow) a n) W W' ∧ GFrame W W' ∧
      f' = ((n : ℚ) * W.perStep flow - ⌊(n : ℚ) * W.perStep flow⌋) * W.cfg.deltan := by
  induction n generalizing W' f' with
  | zero =>
    have : pyRange a (a + (0 : ℕ)) = [] := by simp [pyRange]
    rw [this, demandLoop] at h
    cases h
    exact ⟨Generated.refl .., GFrame.refl _, by simp⟩
  | succ n ih =>
    rw [pyRange_succ, demandLoop_append] at h
    split at h
    · rename_i W1 f1 h1
      obtain ⟨g, fr, e⟩ := ih h1
      rw [demandLoop] at h
      have hx : W1.fl (f1 + W1.fl (flow * W1.dt)) = f1 + flow * W.cfg.deltat := by
        simp [World.fl, World.dt, fr.cfg, hfl]
      have hy : W1.dn = W.cfg.deltan := by simp [World.dn, fr.cfg]
      rw [hx] at h
      split at h
      · rename_i W2 f2 h2
        rw [demandLoop] at h
        cases h
        have hn' : (0:ℚ) < (W.cfg.deltan : ℚ) := by exact_mod_cast hn
        have f1nn : 0 ≤ f1 := by
          rw [e]; exact mul_nonneg (sub_nonneg.2 (Int.floor_le _)) hn'.le
        obtain ⟨g2, fr2, e2⟩ := demandWhile_generated (by rw [fr.cfg]; exact hfl)
          (by rw [fr.cfg]; exact hn) (add_nonneg f1nn (mul_nonneg hf hdt))
          (by rw [fr.getNode]; exact ho) (by rw [fr.getNode]; exact hd) h2
        rw [fr.cfg] at g2 e2
        obtain ⟨k1, k2⟩ := loop_step hn (k := n) (q := W.perStep flow) rfl e
        refine ⟨?_, fr.trans fr2, ?_⟩
        · rw [k1] at g2; exact g.trans g2
        · rw [e2, k2]
      · cases h
    · cases h

theorem demandLoop_total {o d : Ref} {flow : ℚ} {on dn} {a : ℤ} {W : World} {n : ℕ}
    (hfl : W.cfg.fl = id) (hn : 0 < W.cfg.deltan) (hdt : 0 ≤ W.cfg.deltat) (hf : 0 ≤ flow)
    (ho : W.getNode o = .ok on) (hd : W.getNode d = .ok dn) (hfr : NamesFree W) :
    ∃ W' f', demandLoop o d flow (pyRange a (a + n)) W 0 = .ok (W', f') := by
  induction n with
  | zero =>
    have : pyRange a (a + (0 : ℕ)) = [] := by simp [pyRange]
    rw [this, demandLoop]; exact ⟨_, _, rfl⟩
  | succ n ih =>
    obtain ⟨W1, f1, h1⟩ := ih
    obtain ⟨g, fr, e⟩ := demandLoop_generated hfl hn hdt hf ho hd h1
    rw [pyRange_succ, demandLoop_append, h1]
    simp only [demandLoop]
    have hy : W1.dn = W.cfg.deltan := by simp [World.dn, fr.cfg]
    obtain ⟨W2, f2, h2⟩ := demandWhile_total (t := a + n) (k := ⌊W1.fl (f1 + W1.fl (flow * W1.dt)) / W1.dn⌋.toNat + 1)
      (f := W1.fl (f1 + W1.fl (flow * W1.dt))) (W := W1) (by rw [fr.cfg]; exact hfl)
      (by rw [fr.cfg]; exact hn) (by unfold World.dn; omega) (by rw [fr.getNode]; exact ho)
      (by rw [fr.getNode]; exact hd) (fr.free hfr)
    rw [h2]; exact ⟨_, _, rfl⟩

end UX
