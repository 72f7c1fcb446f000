import Verif.Spec.Run
import Verif.Proofs.UpTo
import Verif.Proofs.Phase
import Verif.Proofs.Shape

/-! # `exec_simulation` as a number of time steps -/

namespace UX
open World

theorem tick_frame {W W' : World} (hi : Inv W) (hf : W.finalized = true) (h : W.tick = .ok W') :
    W'.T = W.T + 1 ∧ W'.tsize = W.tsize ∧ W'.finalized = true ∧ W'.cfg = W.cfg ∧
      W'.time = W.now := by
  obtain ⟨W1, h1, rfl⟩ := tick_ok h
  obtain ⟨W6, hs, rfl⟩ := step_star (hi.core hf) h1
  have e := hs.static
  refine ⟨by show W6.T + 1 = _; rw [e.T], e.tsize, by show W6.finalized = true; rw [e.finalized, hf],
    e.cfg, ?_⟩
  show W6.now = _
  unfold World.now World.fl World.dt
  rw [e.T, e.cfg]

theorem finalize_T (W : World) (tm) : (W.finalize tm).T = 0 ∧ (W.finalize tm).finalized = true := by
  have key : ∀ (ns : List NodeId) (A : World), (ns.foldl adjustNodeCapacity A).T = A.T ∧
      (ns.foldl adjustNodeCapacity A).finalized = A.finalized := by
    intro ns
    induction ns with
    | nil => intro A; exact ⟨rfl, rfl⟩
    | cons n t ih =>
      intro A
      rw [List.foldl_cons]
      have h1 : (A.adjustNodeCapacity n).T = A.T ∧ (A.adjustNodeCapacity n).finalized = A.finalized := by
        unfold adjustNodeCapacity
        repeat' split
        all_goals exact ⟨rfl, rfl⟩
      exact ⟨(ih _).1.trans h1.1, (ih _).2.trans h1.2⟩
  unfold World.finalize
  dsimp only
  split
  · exact key _ _
  · exact ⟨rfl, rfl⟩

theorem T_le {OK : World → Prop} {W : World} (h : Reachable OK W) :
    (W.finalized = true → W.T ≤ W.tsize) ∧ (W.finalized = false → W.T = 0) := by
  refine Reachable.induct (P := fun W => (W.finalized = true → W.T ≤ W.tsize) ∧
    (W.finalized = false → W.T = 0)) ?_ ?_ ?_ ?_ ?_ ?_ ?_ ?_ h
  · intro cfg tmax rng; exact ⟨fun h => by simp [World.new] at h, fun _ => rfl⟩
  · intro W a ph t soff hi hf hn _ _ hT; exact hT
  · intro W W' a hi hf ha _ _ hT
    obtain ⟨s, e, nm, k, p, -, -, -, -, -, -, rfl⟩ := addLink_ok ha
    exact hT
  · intro W W' a hi ha _ _ hT
    obtain ⟨o, d, dep, pref, cache, lp, la, nm, -, -, -, -, -, -, -, -, rfl⟩ := addVehicle_ok ha
    exact hT
  · intro W tm hi hf _ _ hT
    have := finalize_T W tm
    exact ⟨fun _ => by rw [this.1]; exact Nat.zero_le _, fun _ => this.1⟩
  · rintro W W' hi _ _ hs hT
    have := hs.static
    rw [this.T, this.tsize, this.finalized]; exact hT
  · rintro W W' hi _ _ hs hT
    obtain ⟨_, _, _, _, _, _, _, _, _, _, _, _, _, _, _, _, _, _, _, rfl, _⟩ := hs
    exact hT
  · intro W W1 W' hi hf hlt _ _ h1 hW hT
    subst hW
    obtain ⟨W6, hs, rfl⟩ := step_star (hi.core hf) h1
    have e := hs.static
    refine ⟨fun _ => ?_, fun h => ?_⟩
    · show W6.T + 1 ≤ W6.tsize
      rw [e.T, e.tsize]; exact hlt
    · have : W6.finalized = false := h
      rw [e.finalized, hf] at this; cases this

theorem ticks_add (j k : ℕ) : ∀ W, ticks (j + k) W = ticks j W >>= ticks k := by
  induction j with
  | zero => intro W; rw [Nat.zero_add]; rfl
  | succ j ih =>
    intro W
    rw [Nat.succ_add]
    show (W.tick >>= ticks (j + k)) = ((W.tick >>= ticks j) >>= ticks k)
    rw [bind_assoc]
    exact bind_congr ih

theorem ticks_reach {W W' : World} {k : ℕ} (h : Reachable Any W)
    (hf : W.finalized = true) (hk : W.T + k ≤ W.tsize) (ht : ticks k W = .ok W') :
    Reachable Any W' ∧ W'.finalized = true ∧ W'.T = W.T + k ∧ W'.tsize = W.tsize ∧ W'.cfg = W.cfg := by
  induction k generalizing W with
  | zero => cases ht; exact ⟨h, hf, rfl, rfl, rfl⟩
  | succ k ih =>
    unfold ticks at ht
    rw [bind_ok] at ht
    obtain ⟨W1, h1, h2⟩ := ht
    obtain ⟨a1, a2, a3, a4, a5⟩ := tick_frame h.inv hf h1
    obtain ⟨b1, b2, b3, b4, b5⟩ := ih (.next h (.tick hf (by omega) h1) trivial) a3 (by omega) h2
    exact ⟨b1, b2, by omega, b4.trans a2, b5.trans a4⟩

/-- The main loop executes consecutive time steps and stops at the horizon. -/
theorem runSteps_ticks (n : ℕ) : ∀ {W : World}, Reachable Any W → W.finalized = true → W.T < W.tsize →
    (W.runSteps (List.range' W.T (n + 1))).map (fun W1 => { W1 with T := W1.T + 1 }) =
      ticks (min (n + 1) (W.tsize - W.T)) W := by
  induction n with
  | zero =>
    intro W h hf hT
    have e : min (0 + 1) (W.tsize - W.T) = 0 + 1 := by omega
    rw [e]
    show ((W.step >>= fun W1 => if W.T + 1 = W1.tsize then pure W1 else pure W1).map _) =
      (W.step >>= fun W1 => pure { W1 with T := W1.T + 1 }) >>= pure
    cases W.step with
    | error e => rfl
    | ok W1 =>
      show ((if W.T + 1 = W1.tsize then (pure W1 : M World) else pure W1).map _) = _
      rw [ite_self]; rfl
  | succ n ih =>
    intro W h hf hT
    have hsplit : ∃ m, min (n + 1 + 1) (W.tsize - W.T) = m + 1 ∧ m = min (n + 1) (W.tsize - (W.T + 1)) :=
      ⟨_, by omega, rfl⟩
    obtain ⟨m, hm, hm'⟩ := hsplit
    rw [hm]
    show ((W.step >>= fun W1 => if W.T + 1 = W1.tsize then pure W1
      else W1.runSteps (List.range' (W.T + 1) (n + 1))).map _) = W.tick >>= ticks m
    cases hW : W.step with
    | error e => unfold tick; rw [hW]; rfl
    | ok W1 =>
      have ht : W.tick = .ok { W1 with T := W1.T + 1 } := by unfold tick; rw [hW]; rfl
      obtain ⟨a1, a2, a3, a4, a5⟩ := tick_frame h.inv hf ht
      have b2 : W1.tsize = W.tsize := a2
      have b1 : W1.T + 1 = W.T + 1 := a1
      rw [ht]
      show (if W.T + 1 = W1.tsize then pure W1
        else W1.runSteps (List.range' (W.T + 1) (n + 1)) : M World).map _ = ticks m _
      split
      · rename_i hc
        have : m = 0 := by rw [hm']; omega
        rw [this]
        rfl
      · rename_i hc
        have hr : Reachable Any { W1 with T := W1.T + 1 } := .next h (.tick hf hT ht) trivial
        have := ih hr a3 (by show W1.T + 1 < W1.tsize; omega)
        rw [show ({ W1 with T := W1.T + 1 } : World).tsize - ({ W1 with T := W1.T + 1 } : World).T =
          W.tsize - (W.T + 1) from by show W1.tsize - (W1.T + 1) = _; rw [b1, b2]] at this
        rw [hm', ← this]
        show _ = Except.map _ (World.runSteps _ (List.range' (W1.T + 1) (n + 1)))
        rw [b1]
        rfl

/-- Number of steps a call of `exec_simulation` with end step `e` executes. -/
def stepsOf (W : World) (e : ℤ) : ℕ := min (e.toNat + 1 - W.T) (W.tsize - W.T)

/-- `exec_simulation` after finalization. -/
theorem exec_eq {W : World} {u : World.Until} (h : Reachable Any W) (hf : W.finalized = true) :
    W.exec u =
      if (W.T : ℤ) = W.endTs u ∧ W.endTs u = W.tsize then .ok (W, 1)
      else if W.endTs u < W.T then .error .exception
      else (ticks (stepsOf W (W.endTs u)) W).map (fun W' =>
        ({ W' with time := W'.now }, if W'.T = W'.tsize then 1 else 0)) := by
  unfold World.exec
  simp only [hf, if_true]
  split
  · rfl
  · rename_i h1
    split
    · rfl
    · rename_i h2
      have hle : W.endTs u ≤ W.tsize := by
        unfold World.endTs
        split
        · exact le_refl _
        all_goals exact min_le_right _ _
      have hT := (T_le h).1 hf
      have hlt : W.T < W.tsize := by omega
      obtain ⟨n, hn⟩ : ∃ n, (W.endTs u).toNat + 1 - W.T = n + 1 := ⟨(W.endTs u).toNat - W.T, by omega⟩
      have key := runSteps_ticks n h hf hlt
      unfold stepsOf
      rw [hn, ← key]
      cases W.runSteps (List.range' W.T (n + 1)) <;> rfl

theorem exec_unfinal {W : World} {u : World.Until} (hf : W.finalized = false) :
    W.exec u = (W.finalize none).exec u := by
  have := (finalize_T W none).2
  unfold World.exec
  simp only [hf, this, if_true, Bool.false_eq_true, if_false]

theorem stepsOf_pos {W : World} {u : World.Until} (h : Reachable Any W) (hf : W.finalized = true)
    (h1 : ¬ ((W.T : ℤ) = W.endTs u ∧ W.endTs u = W.tsize)) (h2 : ¬ W.endTs u < W.T) :
    0 < stepsOf W (W.endTs u) ∧ W.T + stepsOf W (W.endTs u) ≤ W.tsize := by
  have hT := (T_le h).1 hf
  have hle : W.endTs u ≤ W.tsize := by
    unfold World.endTs
    split
    · exact le_refl _
    all_goals exact min_le_right _ _
  unfold stepsOf
  omega

/-! ### Time stamps do not change without pending taxi events -/

/-- No taxi has an event pending. -/
def NoEvents (W : World) : Prop := ∀ v n, W.V.nodeEvent v n = none

theorem tick_noEvents {W W' : World} (hi : Inv W) (hf : W.finalized = true) (h : W.tick = .ok W')
    (h0 : NoEvents W) : NoEvents W' ∧ W'.H = W.H := by
  obtain ⟨W1, h1, rfl⟩ := tick_ok h
  obtain ⟨W6, hs, rfl⟩ := step_star (hi.core hf) h1
  suffices NoEvents W6 ∧ W6.H = W.H from this
  refine PStar.inv_core (P := fun W' => NoEvents W' ∧ W'.H = W.H) ?_ hs (hi.core hf) ⟨h0, rfl⟩
  intro a A B _ hc hp h
  have hs := hp.shape hc.s
  clear hp
  cases hs with
  | @event _ v a e _ _ _ _ _ _ _ ha he => rw [h.1] at he; cases he
  | _ => exact h

theorem ticks_noEvents {W W' : World} {k : ℕ} (h : Reachable Any W) (hf : W.finalized = true)
    (hk : W.T + k ≤ W.tsize) (ht : ticks k W = .ok W') (h0 : NoEvents W) : NoEvents W' ∧ W'.H = W.H := by
  induction k generalizing W with
  | zero => cases ht; exact ⟨h0, rfl⟩
  | succ k ih =>
    unfold ticks at ht
    rw [bind_ok] at ht
    obtain ⟨W1, h1, h2⟩ := ht
    obtain ⟨a1, a2, a3, a4, a5⟩ := tick_frame h.inv hf h1
    obtain ⟨b1, b2⟩ := tick_noEvents h.inv hf h1 h0
    obtain ⟨c1, c2⟩ := ih (.next h (.tick hf (by omega) h1) trivial) a3 (by omega) h2 b1
    exact ⟨c1, c2.trans b2⟩

theorem ticks_upTo {c : Config} {τ ρ : Bool} (hd : ρ = true ∨ c.hardDet = true) (k : ℕ) :
    ∀ {W W' : World}, UpTo c τ ρ W W' → RM (UpTo c τ ρ) (ticks k W) (ticks k W') := by
  induction k with
  | zero => intro W W' h; exact .ok h
  | succ k ih => intro W W' h; exact (tick_upTo hd h).bind (fun _ _ h => ih h)

/-- What consecutive calls amount to. -/
structure RunOf (W W1 : World) (j : ℕ) (W2 : World) : Prop where
  ticks : ticks j W = .ok W2
  fit : W.T + j ≤ W.tsize
  up : UpTo W.cfg false true W2 W1
  reach : Reachable Any W1
  fin : W1.finalized = true
  time : (j = 0 ∧ W1 = W) ∨ (0 < j ∧ W1.time = W1.now)
  noEv : NoEvents W → NoEvents W1 ∧ W1.H = W.H

theorem execs_run {W : World} (h : Reachable Any W) (hf : W.finalized = true) (us : List World.Until)
    {W1 : World} (h1 : execs W us = .ok W1) : ∃ j W2, RunOf W W1 j W2 := by
  unfold execs at h1
  refine foldlM_inv (P := fun W1 => ∃ j W2, RunOf W W1 j W2) ?_ ?_ h1
  · rintro A u B - ⟨j, W2, hA⟩ hB
    rw [map_ok] at hB
    obtain ⟨⟨B', r⟩, hB, rfl⟩ := hB
    rw [exec_eq hA.reach hA.fin] at hB
    split at hB
    · cases hB; exact ⟨j, W2, hA⟩
    · rename_i c1
      split at hB
      · cases hB
      · rename_i c2
        rw [map_ok] at hB
        obtain ⟨B1, hB, hB'⟩ := hB
        cases hB'
        obtain ⟨k0, k1⟩ := stepsOf_pos hA.reach hA.fin c1 c2
        obtain ⟨r1, r2, r3, r4, r5⟩ := ticks_reach h hf hA.fit hA.ticks
        have eA : A.T = W2.T ∧ A.tsize = W2.tsize := by
          obtain ⟨h1, r, t, g, a, rfl, h2, h3⟩ := hA.up; exact ⟨rfl, rfl⟩
        obtain ⟨q1, q2, q3, q4, q5⟩ := ticks_reach hA.reach hA.fin k1 hB
        generalize stepsOf A (A.endTs u) = k at *
        have key := ticks_upTo (.inl rfl) k hA.up
        rw [hB] at key
        cases hk : UX.ticks k W2 with
        | error e => rw [hk] at key; cases key
        | ok W3 =>
          rw [hk] at key
          cases key with
          | ok key =>
            refine ⟨j + k, W3, ?_, ?_, ?_, ?_, ?_, ?_, ?_⟩
            · rw [ticks_add, hA.ticks]; exact hk
            · omega
            · obtain ⟨h1, r, t, g, a, rfl, h2, h3⟩ := key
              exact ⟨h1, r, _, g, a, rfl, (fun h => by cases h), h3⟩
            · exact .next q1 (.endExec q2) trivial
            · exact q2
            · exact .inr ⟨by omega, rfl⟩
            · intro h0
              obtain ⟨n1, n2⟩ := hA.noEv h0
              obtain ⟨m1, m2⟩ := ticks_noEvents hA.reach hA.fin k1 hB n1
              exact ⟨m1, m2.trans n2⟩
  · exact ⟨0, W, rfl, (T_le h).1 hf, UpTo.refl W _ _, h, hf, .inl ⟨rfl, rfl⟩, fun h => ⟨h, rfl⟩⟩

end UX
