import Verif.Proofs.CppCaps
import Mathlib.Data.Rat.Floor
import Mathlib.Algebra.Order.Floor.Semiring

/-!
# Signals during a run of the C++ engine
-/

namespace UX.Cpp
open CWorld Relation Spec

/-- Phase and clock of a signal after one more time step. -/
def sigStep (g : CGlob) (ints : List ℚ) (x : ℕ × ℚ) : ℕ × ℚ :=
  if ints.length ≤ 1 then x
  else if ints.getD x.1 0 < x.2 then
    (if ints.length ≤ x.1 + 1 then 0 else x.1 + 1, g.fl (0 + g.deltaT))
  else (x.1, g.fl (x.2 + g.deltaT))

theorem sigNext_step (g : CGlob) (N : CNode) :
    ((sigNext g N).sigPhase, (sigNext g N).sigT) = sigStep g N.sigInt (N.sigPhase, N.sigT) ∧
    (sigNext g N).sigLog = N.sigLog ++ [(sigNext g N).sigPhase] := by
  refine ⟨?_, rfl⟩
  unfold sigNext sigStep
  simp only [decide_eq_true_eq]
  by_cases h1 : N.sigInt.length ≤ 1
  · have h1' : ¬ 1 < N.sigInt.length := by omega
    simp [h1, h1']
  · have h1' : 1 < N.sigInt.length := by omega
    by_cases h2 : N.sigInt.getD N.sigPhase 0 < N.sigT
    · simp only [h1, h1', h2, true_and, if_true, if_false]
    · simp only [h1, h1', h2, if_true, if_false, and_false]

theorem sigStep_fix {g g' : CGlob} (h : g.fix = g'.fix) : sigStep g = sigStep g' := by
  funext i x; unfold sigStep
  rw [CGlob.fix_fl h, CGlob.fix_deltaT h]

theorem StepHist.signal {W V : CWorld} {h : List Pass} (s : StepHist W V h) {n : ℕ} (hn : n < W.g.nNodes) :
    ((V.node n).sigPhase, (V.node n).sigT) =
      sigStep W.g (W.node n).sigInt ((W.node n).sigPhase, (W.node n).sigT) ∧
    (V.node n).sigLog = (W.node n).sigLog ++ [(V.node n).sigPhase] := by
  obtain ⟨a, b, c⟩ := s.sig n hn
  obtain ⟨d, e⟩ := sigNext_step W.g (W.node n)
  rw [a, b, c]
  exact ⟨d, e⟩

theorem RunHist.signal {W W' : CWorld} {h : List Pass} (r : RunHist W h W') {n : ℕ} (hn : n < W.g.nNodes) :
    ((W'.node n).sigPhase, (W'.node n).sigT) =
      (sigStep W.g (W.node n).sigInt)^[W'.g.timestep - W.g.timestep]
        ((W.node n).sigPhase, (W.node n).sigT) := by
  induction r with
  | nil W => simp
  | @cons W V W' h h' s r ih =>
    have h1 := ih (by rw [CGlob.fix_nNodes s.fixn]; exact hn)
    have hle := r.keep.2.2
    have ht := s.timen
    rw [sigStep_fix s.fixn, s.parn.sigInt] at h1
    rw [h1, show W'.g.timestep - W.g.timestep = (W'.g.timestep - V.next.g.timestep) + 1 by omega,
      Function.iterate_succ_apply, ← (s.signal hn).1]
    rfl

/-- One phase is recorded for each time step. -/
theorem RunHist.sigLog {W W' : CWorld} {h : List Pass} (r : RunHist W h W') {n : ℕ} (hn : n < W.g.nNodes) :
    ∃ L, (W'.node n).sigLog = (W.node n).sigLog ++ L ∧ L.length = W'.g.timestep - W.g.timestep ∧
      ∀ k, k < W'.g.timestep - W.g.timestep → L[k]? =
        some ((sigStep W.g (W.node n).sigInt)^[k + 1] ((W.node n).sigPhase, (W.node n).sigT)).1 := by
  induction r with
  | nil W => exact ⟨[], by simp, by simp, fun k hk => by omega⟩
  | @cons W V W' h h' s r ih =>
    obtain ⟨L, h1, h2, h3⟩ := ih (by rw [CGlob.fix_nNodes s.fixn]; exact hn)
    have hle := r.keep.2.2
    have ht := s.timen
    obtain ⟨s1, s2⟩ := s.signal hn
    refine ⟨(V.node n).sigPhase :: L, ?_, ?_, fun k hk => ?_⟩
    · rw [h1]
      show (V.node n).sigLog ++ L = _
      rw [s2]; simp
    · simp only [List.length_cons]; omega
    · rw [sigStep_fix s.fixn, s.parn.sigInt] at h3
      cases k with
      | zero =>
        rw [Function.iterate_one, ← s1]; rfl
      | succ k =>
        rw [List.getElem?_cons_succ, h3 k (by omega), Function.iterate_succ_apply (n := k + 1), ← s1]
        rfl

theorem NRep.green {W : CWorld} {r r' : ℕ → ℚ} {h : List Pass} (k : NRep W r h r') : ∀ e ∈ h, Green W e := by
  induction k with
  | nil r => intro e he; simp at he
  | @skip r r' e h hs k ih =>
    intro x hx
    rcases List.mem_cons.1 hx with rfl | hx
    · intro a ha hb
      rcases hs with hs | hs
      · rw [hs] at ha; simp at ha
      · exact absurd hs hb
    · exact ih x hx
  | @move r r' e h a ha hb hr hg k ih =>
    intro x hx
    rcases List.mem_cons.1 hx with rfl | hx
    · exact hg
    · exact ih x hx

theorem RunHist.green {W W' : CWorld} {h : List Pass} (r : RunHist W h W')
    (hd : ∀ a, a < W.g.nLinks → (W.link a).dst < W.g.nNodes) : ∀ e ∈ h, GreenAt W W' e := by
  induction r with
  | nil W => intro e he; simp at he
  | @cons W V W' h h' s r ih =>
    have hle := r.keep.2.2
    have ht := s.timen
    intro e he a ha hb hs
    have hro : ∀ {U : CWorld}, OnRoad U e → a < U.g.nLinks := by
      intro U hU
      unfold OnRoad at hU
      rw [ha] at hU
      cases hb' : e.enters with
      | none => exact absurd hb' hb
      | some b => rw [hb'] at hU; exact hU.1
    rcases List.mem_append.1 he with he | he
    · have hn := hd a (hro (s.road e he))
      obtain ⟨q, _, k⟩ := s.nodes
      rcases k.green e he a ha hb with g | g
      · rw [s.par.dst, s.par.group] at g
        refine ⟨_, g, ?_⟩
        obtain ⟨L, h1, _, _⟩ := r.sigLog (n := (W.link a).dst) (by rw [CGlob.fix_nNodes s.fixn]; exact hn)
        have h1' : (W'.node (W.link a).dst).sigLog = (V.node (W.link a).dst).sigLog ++ L := h1
        rw [h1', (s.signal hn).2, s.time_eq e he, Nat.sub_self, Nat.add_zero, List.append_assoc,
          List.getElem?_append_right le_rfl]
        simp
      · rw [s.par.dst, s.par.sigInt] at g; omega
    · have hn := hd a (by
        have := hro (r.road e he)
        rwa [CGlob.fix_nLinks s.fixn] at this)
      obtain ⟨p, hp, h2⟩ := ih (fun a ha => by
        rw [s.parn.dst, CGlob.fix_nNodes s.fixn]
        exact hd a (by rwa [CGlob.fix_nLinks s.fixn] at ha)) e he a ha hb (by
          rw [s.parn.dst, s.parn.sigInt]; exact hs)
      rw [s.parn.group] at hp
      rw [s.parn.dst] at h2
      refine ⟨p, hp, ?_⟩
      have h3 : (V.next.node (W.link a).dst).sigLog = _ := (s.signal hn).2
      have h4 := (r.timed.1 e he).1
      rw [h3] at h2
      rw [← h2]
      congr 1
      rw [List.length_append, List.length_singleton, ht]
      omega

/-! ## Order and duration of phases -/

theorem sigStep_succ {g : CGlob} {ints : List ℚ} {x : ℕ × ℚ} (hp : x.1 < ints.length) :
    (sigStep g ints x).1 = x.1 ∨ (sigStep g ints x).1 = (x.1 + 1) % ints.length := by
  unfold sigStep
  split
  · exact Or.inl rfl
  · split
    · right
      simp only
      split
      · rw [show x.1 + 1 = ints.length by omega, Nat.mod_self]
      · rw [Nat.mod_eq_of_lt (by omega)]
    · exact Or.inl rfl

theorem sigStep_valid {g : CGlob} {ints : List ℚ} {x : ℕ × ℚ} (hp : x.1 < ints.length) :
    (sigStep g ints x).1 < ints.length := by
  rcases sigStep_succ (g := g) hp with h | h
  · rw [h]; exact hp
  · rw [h]; exact Nat.mod_lt _ (by omega)

theorem sigIter_valid {g : CGlob} {ints : List ℚ} (k : ℕ) {x : ℕ × ℚ} (hp : x.1 < ints.length) :
    ((sigStep g ints)^[k] x).1 < ints.length := by
  induction k generalizing x with
  | zero => exact hp
  | succ k ih => rw [Function.iterate_succ_apply]; exact ih (sigStep_valid hp)

theorem cyclic_of_iter {g : CGlob} {ints : List ℚ} (L : List ℕ) {x : ℕ × ℚ} (hp : x.1 < ints.length)
    (h : ∀ k, k < L.length → L[k]? = some ((sigStep g ints)^[k + 1] x).1) : Cyclic ints.length x.1 L := by
  induction L generalizing x with
  | nil => exact .nil _
  | cons q L ih =>
    have h0 := h 0 (by simp)
    rw [Function.iterate_one, List.getElem?_cons_zero, Option.some.injEq] at h0
    have tl := ih (x := sigStep g ints x) (sigStep_valid hp) (fun k hk => by
      have := h (k + 1) (by simp; omega)
      rw [List.getElem?_cons_succ, Function.iterate_succ_apply] at this
      exact this)
    rcases sigStep_succ (g := g) hp with e | e
    · rw [e] at h0 tl; rw [h0]; exact .stay tl
    · rw [e] at h0 tl; rw [h0]; exact .go tl

theorem sig_hold {g : CGlob} (hfl : g.fl = id) {ints : List ℚ} (hn : 2 ≤ ints.length) {p : ℕ} {t : ℚ}
    (hd : 0 ≤ g.deltaT) (k : ℕ) (h : ∀ j, j < k → t + j * g.deltaT ≤ ints.getD p 0) :
    (sigStep g ints)^[k] (p, t) = (p, t + k * g.deltaT) := by
  induction k with
  | zero => simp
  | succ k ih =>
    rw [Function.iterate_succ_apply', ih (fun j hj => h j (by omega))]
    unfold sigStep
    rw [if_neg (by omega), if_neg (by simp only; exact not_lt.2 (h k (by omega))), hfl]
    simp only [id, Prod.mk.injEq, true_and]
    push_cast; ring

theorem sig_duration {g : CGlob} (hfl : g.fl = id) {ints : List ℚ} (hn : 2 ≤ ints.length) {p : ℕ}
    (hp : p < ints.length) (hd : 0 < g.deltaT) (hg : 0 ≤ ints.getD p 0) :
    (∀ k, k ≤ ⌊ints.getD p 0 / g.deltaT⌋₊ →
      (sigStep g ints)^[k] (p, g.deltaT) = (p, (k + 1) * g.deltaT)) ∧
    (sigStep g ints)^[⌊ints.getD p 0 / g.deltaT⌋₊ + 1] (p, g.deltaT) =
      ((p + 1) % ints.length, g.deltaT) := by
  have hq : 0 ≤ ints.getD p 0 / g.deltaT := div_nonneg hg hd.le
  have h1 : ∀ k, k ≤ ⌊ints.getD p 0 / g.deltaT⌋₊ →
      (sigStep g ints)^[k] (p, g.deltaT) = (p, (k + 1) * g.deltaT) := by
    intro k hk
    rw [sig_hold hfl hn hd.le k]
    · congr 1; ring
    · intro j hj
      have : ((j + 1 : ℕ) : ℚ) ≤ ints.getD p 0 / g.deltaT := (Nat.le_floor_iff hq).1 (by omega)
      rw [le_div_iff₀ hd] at this
      push_cast at this
      linarith
  refine ⟨h1, ?_⟩
  rw [Function.iterate_succ_apply', h1 _ le_rfl]
  unfold sigStep
  have h2 : ints.getD p 0 < (⌊ints.getD p 0 / g.deltaT⌋₊ + 1) * g.deltaT := by
    rw [← div_lt_iff₀ hd]; exact Nat.lt_floor_add_one _
  rw [if_neg (by omega), if_pos h2, hfl]
  simp only [id, zero_add, Prod.mk.injEq, and_true]
  split
  · rw [show p + 1 = ints.length by omega, Nat.mod_self]
  · rw [Nat.mod_eq_of_lt (by omega)]

end UX.Cpp
