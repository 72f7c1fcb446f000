import Verif.Proofs.Capacity
import Verif.Spec.Signal
import Mathlib.Tactic.FieldSimp
import Mathlib.Algebra.Order.BigOperators.Group.List

namespace UX
open World

/-! ### Initial phase -/

theorem cycleLength_id (l : List ℚ) : cycleLength id l = l.sum := by
  unfold cycleLength
  have : ∀ (l : List ℚ) (a : ℚ), l.foldl (fun a g => id (a + g)) a = a + l.sum := by
    intro l
    induction l with
    | nil => intro a; simp
    | cons g t ih => intro a; rw [List.foldl_cons, ih, List.sum_cons]; simp only [id]; ring
  rw [this]; ring

theorem findPhase_run {signal : List ℚ} (k : ℕ) : ∀ (s pre : List ℚ) (off : ℚ), s ≠ [] →
    signal = pre ++ s → 0 ≤ off → (∀ g ∈ s, 0 ≤ g) →
    (off < s.sum → ∃ p t, findPhase id signal (s.length + k) off pre.length = .ok (p, t) ∧
      (signal.take p).sum + t = pre.sum + off ∧ 0 ≤ t ∧ ∃ g, signal[p]? = some g ∧ t < g) ∧
    (s.sum ≤ off → findPhase id signal (s.length + k) off pre.length =
      findPhase id signal k (off - s.sum) 0) := by
  intro s
  induction s with
  | nil => intro pre off h; exact absurd rfl h
  | cons g t ih =>
    intro pre off _ hs h0 hg
    have hg0 : 0 ≤ g := hg g (by simp)
    have hget : signal[pre.length]? = some g := by rw [hs]; simp
    have hlen : signal.length = pre.length + (t.length + 1) := by rw [hs]; simp
    have hunf : findPhase id signal ((g :: t).length + k) off pre.length =
        if off < g then .ok (pre.length, off)
        else findPhase id signal (t.length + k) (off - g)
          (if signal.length ≤ pre.length + 1 then 0 else pre.length + 1) := by
      have e : (g :: t).length + k = (t.length + k) + 1 := by simp; omega
      rw [e]
      conv_lhs => unfold findPhase
      rw [hget]
      rfl
    rw [hunf]
    by_cases hlt : off < g
    · rw [if_pos hlt]
      refine ⟨fun _ => ⟨pre.length, off, rfl, ?_, h0, g, hget, hlt⟩, fun hle => ?_⟩
      · rw [hs]; simp
      · exfalso
        have : 0 ≤ t.sum := List.sum_nonneg (fun x hx => hg x (by simp [hx]))
        rw [List.sum_cons] at hle; linarith
    · rw [if_neg hlt]
      by_cases ht : t = []
      · subst ht
        have hl : signal.length ≤ pre.length + 1 := by rw [hlen]; simp
        rw [if_pos hl]
        refine ⟨fun h => ?_, fun _ => by simp⟩
        simp only [List.sum_cons, List.sum_nil, add_zero] at h
        exact absurd h hlt
      · have hl : ¬ signal.length ≤ pre.length + 1 := by
          rw [hlen]
          have : t.length ≠ 0 := by simpa using ht
          omega
        rw [if_neg hl]
        have := ih (pre ++ [g]) (off - g) ht (by rw [hs]; simp) (by linarith)
          (fun x hx => hg x (by simp [hx]))
        simp only [List.length_append, List.length_singleton, List.sum_append, List.sum_singleton] at this
        refine ⟨fun h => ?_, fun h => ?_⟩
        · rw [List.sum_cons] at h
          obtain ⟨p, q, h1, h2, h3⟩ := this.1 (by linarith)
          exact ⟨p, q, h1, by rw [h2]; ring, h3⟩
        · rw [List.sum_cons] at h
          rw [this.2 (by linarith), List.sum_cons]
          congr 1; ring

/-- The loop of `Node.__init__` from a nonnegative offset. -/
theorem findPhase_spec {signal : List ℚ} (hg : ∀ g ∈ signal, 0 ≤ g) (hpos : 0 < signal.sum) (m : ℕ) :
    ∀ off : ℚ, 0 ≤ off → off < (m + 1) * signal.sum → ∀ k, ∃ p t j, findPhase id signal
      ((m + 1) * signal.length + k) off 0 = .ok (p, t) ∧ j ≤ m ∧
      (signal.take p).sum + t = off - (j : ℕ) * signal.sum ∧ 0 ≤ t ∧ ∃ g, signal[p]? = some g ∧ t < g := by
  have hne : signal ≠ [] := by rintro rfl; simp at hpos
  induction m with
  | zero =>
    intro off h0 h1 k
    obtain ⟨p, t, h2, h3, h4⟩ := (findPhase_run (signal := signal) k signal [] off hne rfl h0 hg).1
      (by simpa using h1)
    exact ⟨p, t, 0, by simpa using h2, le_refl _, by simpa using h3, h4⟩
  | succ m ih =>
    intro off h0 h1 k
    by_cases hlt : off < signal.sum
    · obtain ⟨p, t, h2, h3, h4⟩ := (findPhase_run (signal := signal) ((m + 1) * signal.length + k)
        signal [] off hne rfl h0 hg).1 hlt
      refine ⟨p, t, 0, ?_, Nat.zero_le _, by simpa using h3, h4⟩
      rw [← h2]; congr 1; ring
    · have hr := (findPhase_run (signal := signal) ((m + 1) * signal.length + k)
        signal [] off hne rfl h0 hg).2 (le_of_not_gt hlt)
      obtain ⟨p, t, j, h2, h3, h4, h5⟩ := ih (off - signal.sum) (by linarith)
        (by push_cast at h1 ⊢; linarith) k
      refine ⟨p, t, j + 1, ?_, by omega, ?_, h5⟩
      · rw [← h2, ← hr]; congr 1; ring
      · rw [h4]; push_cast; ring

theorem findPhase_neg {signal : List ℚ} {g : ℚ} (h : signal[0]? = some g) {off : ℚ} (ho : off < g)
    (k : ℕ) : findPhase id signal (k + 1) off 0 = .ok (0, off) := by
  unfold findPhase; rw [h]; simp [ho]

theorem findPhase_mono {fl : ℚ → ℚ} {signal : List ℚ} {r : ℕ × ℚ} : ∀ {fuel : ℕ} {off : ℚ} {i : ℕ},
    findPhase fl signal fuel off i = .ok r → ∀ k, findPhase fl signal (fuel + k) off i = .ok r := by
  intro fuel
  induction fuel with
  | zero => intro off i h; simp [findPhase] at h
  | succ m ih =>
    intro off i h k
    have e : m + 1 + k = (m + k) + 1 := by omega
    rw [e]
    unfold findPhase at h ⊢
    split at h
    · simp at h
    · rename_i g hg
      split at h
      · rename_i ho; rw [if_pos ho]; exact h
      · rename_i ho; rw [if_neg ho]; exact ih h k

/-! ### One step -/

/-- One step of a signal with plan `g`: (phase, elapsed time). -/
def sigNext (fl : ℚ → ℚ) (dt : ℚ) (g : List ℚ) (s : ℕ × ℚ) : ℕ × ℚ :=
  if g.getD s.1 0 < s.2 then (if g.length ≤ s.1 + 1 then 0 else s.1 + 1, fl (0 + dt)) else (s.1, fl (s.2 + dt))

theorem signalControl_eq {W W' : World} {n : NodeId} (h : W.signalControl n = .ok W') :
    W.N.phase n < (W.N.signal n).length ∧
    (W'.N.phase n, W'.N.signalT n) = sigNext W.cfg.fl W.cfg.deltat (W.N.signal n) (W.N.phase n, W.N.signalT n) ∧
    W'.N.signalLog n = W'.N.phase n :: W.N.signalLog n := by
  unfold signalControl at h
  split at h
  · simp at h
  · rename_i g hg
    simp only [Except.ok.injEq] at h
    subst h
    obtain ⟨hlt, -⟩ := List.getElem?_eq_some_iff.mp hg
    have hgd : (W.N.signal n).getD (W.N.phase n) 0 = g := by
      rw [List.getD_eq_getElem?_getD, hg]; rfl
    refine ⟨hlt, ?_, ?_⟩
    · simp only [upd_same, sigNext, hgd, World.fl, World.dt]
      by_cases hs : g < W.N.signalT n <;> simp [hs]
    · simp only [upd_same]

/-- phase, elapsed time and log of the signal at a node -/
def sigAt (n : NodeId) (W : World) : ℕ × ℚ × List ℕ := (W.N.phase n, W.N.signalT n, W.N.signalLog n)

theorem sigAt_prim {act : Act} {k : NodeId} {W W' : World} (ha : act ≠ .nodeTick k) (hc : Core W)
    (hp : Prim act W W') : sigAt k W' = sigAt k W := by
  have hs := hp.shape hc.s
  clear hp
  cases hs with
  | @nodeTick _ n ph st sl fc hn hsig hph hfc =>
    have hkn : k ≠ n := fun e => ha (by rw [e])
    unfold signalControl at hsig
    split at hsig
    · simp at hsig
    · simp only [Except.ok.injEq, World.mk.injEq, NodeF.mk.injEq, true_and, and_true] at hsig
      simp only [sigAt, ← hsig.1, ← hsig.2.1, ← hsig.2.2, upd_ne _ _ hkn]
  | _ => rfl

theorem sigAt_star {A : Act → Prop} {k : NodeId} {W W' : World} (hA : ∀ a, A a → a ≠ .nodeTick k)
    (hc : Core W) (hp : PStar A W W') : sigAt k W' = sigAt k W :=
  hp.inv_core (P := fun Z => sigAt k Z = sigAt k W)
    (fun a Z Z' ha hcZ hpr hz => (sigAt_prim (hA a ha) hcZ hpr).trans hz) hc rfl

/-- Specification of the effect of one time step on the signal at `n`. -/
def SigStep (n : NodeId) (W W' : World) : Prop :=
  W.N.phase n < (W.N.signal n).length ∧ W'.N.signal = W.N.signal ∧
    (W'.N.phase n, W'.N.signalT n) =
      sigNext W.cfg.fl W.cfg.deltat (W.N.signal n) (W.N.phase n, W.N.signalT n) ∧
    W'.N.signalLog n = W'.N.phase n :: W.N.signalLog n

theorem gen_signal {W W' : World} (hc : Core W) {n : NodeId} (hn : n < W.nNodes)
    (h : (List.range W.nNodes).foldlM (fun W n => do (← W.generate n).nodeUpdate n) W = .ok W') :
    SigStep n W W' := by
  have := foldlM_inv_pre (P := fun (pre : List ℕ) (W1 : World) => Core W1 ∧ Static W W1 ∧
      (n ∉ pre → sigAt n W1 = sigAt n W) ∧ (n ∈ pre → SigStep n W W1))
    (l := List.range W.nNodes) (f := fun W n => do (← W.generate n).nodeUpdate n) ?_
    ⟨hc, Static.refl W, fun _ => rfl, by simp⟩ h
  · exact this.2.2.2 (by simpa using hn)
  · rintro pre k post W1 W2 hpre ⟨hc1, hs, h7, h8⟩ hu
    have hkn : k < W1.nNodes := by
      have : k ∈ List.range W.nNodes := hpre ▸ (by simp)
      rw [hs.nNodes]; simpa using this
    have hnd : (pre ++ k :: post).Nodup := hpre ▸ List.nodup_range
    have hkp : k ∉ pre := by
      intro hm
      exact (List.nodup_append.mp hnd).2.2 _ hm _ (by simp) rfl
    simp only [bind_ok] at hu
    obtain ⟨W1', hg, hu⟩ := hu
    have hst := generateLoop_star' hkn hg
    have hc1' : Core W1' := hc1.star hst
    have hs' : Static W W1' := hs.trans hst.static
    have hpr : Prim (.nodeTick k) W1' W2 := .nodeTick (by rw [hst.static.nNodes]; exact hkn) hu
    have hsg := sigAt_star (k := n) (fun a ha => ha.2 n) hc1 hst
    have hs2 := hs'.trans hpr.static
    refine ⟨hc1'.prim hpr, hs2, fun hm => ?_, fun hm => ?_⟩
    · simp only [List.mem_append, List.mem_singleton, not_or] at hm
      rw [sigAt_prim (by simpa using Ne.symm hm.2) hc1' hpr, hsg]
      exact h7 hm.1
    · by_cases hnk : n = k
      · subst hnk
        have h9 := hsg.trans (h7 hkp)
        unfold nodeUpdate at hu
        split at hu
        · simp at hu
        · rename_i W3 h3
          simp only [Except.ok.injEq] at hu
          obtain ⟨a1, a2, a3⟩ := signalControl_eq h3
          have hfc : sigAt n W2 = sigAt n W3 := by
            rw [← hu]; unfold flowCapUpdate
            split
            · split <;> rfl
            · rfl
          simp only [sigAt, Prod.mk.injEq] at h9 hfc
          rw [hs'.signal, h9.1, h9.2.1, hs'.cfg] at a2
          rw [hs'.signal, h9.1] at a1
          refine ⟨a1, hs2.signal, ?_, ?_⟩
          · rw [hfc.1, hfc.2.1]; exact a2
          · rw [hfc.2.2, hfc.1, a3, h9.2.2]
      · simp only [List.mem_append, List.mem_singleton, hnk, or_false] at hm
        have h9 := (sigAt_prim (k := n) (by simpa using Ne.symm hnk) hc1' hpr).trans hsg
        obtain ⟨b1, b2, b3, b4⟩ := h8 hm
        simp only [sigAt, Prod.mk.injEq] at h9
        exact ⟨b1, hs2.signal, by rw [h9.1, h9.2.1]; exact b3, by rw [h9.1, h9.2.2]; exact b4⟩

theorem step_signal {W W1 : World} (hi : Inv W) (hf : W.finalized = true) (h : W.step = .ok W1)
    {n : NodeId} (hn : n < W.nNodes) : SigStep n W W1 := by
  obtain ⟨A, B, C, D, E, F, hp, rfl⟩ := step_phases (hi.core hf) h
  have hsA := hp.s1.static
  have e1 : sigAt n A = sigAt n W := sigAt_star (fun a ha => by cases a <;> simp_all [isLinkTick])
    (hi.core hf) hp.s1
  have e2 := gen_signal hp.c1 (n := n) (by rw [hsA.nNodes]; exact hn) hp.p2
  have e3 : sigAt n C = sigAt n B := sigAt_star (fun a ha => by cases a <;> simp_all [isTrAny]) hp.c2 hp.s3
  have e4 : sigAt n D = sigAt n C := sigAt_star (fun a ha => by cases a <;> simp_all [isCf]) hp.c3 hp.s4
  have e5 : sigAt n E = sigAt n D := sigAt_star
    (fun a ha => by have := isUpdAny_late a ha; cases a <;> simp_all [isLate]) hp.c4 hp.s5
  have e6 : sigAt n F = sigAt n E := sigAt_star (fun a ha => by cases a <;> simp_all [isRouting]) hp.c5 hp.s6
  have e7 : sigAt n F = sigAt n B := e6.trans (e5.trans (e4.trans e3))
  have hsF := (((((hsA.trans hp.s2.static).trans hp.s3.static).trans hp.s4.static).trans
    hp.s5.static).trans hp.s6.static)
  obtain ⟨b1, b2, b3, b4⟩ := e2
  simp only [sigAt, Prod.mk.injEq] at e1 e7
  rw [hsA.signal, e1.1] at b1
  rw [hsA.signal, e1.1, e1.2.1, hsA.cfg] at b3
  exact ⟨b1, hsF.signal, by rw [e7.1, e7.2.1]; exact b3, by rw [e7.1, e7.2.2, b4, e1.2.2]⟩

/-! ### API calls and signals -/

/-- the signals of the nodes are the same -/
structure SameSig (W W' : World) : Prop where
  nNodes : W'.nNodes = W.nNodes
  signal : W'.N.signal = W.N.signal
  phase : W'.N.phase = W.N.phase
  signalT : W'.N.signalT = W.N.signalT
  signalLog : W'.N.signalLog = W.N.signalLog

theorem ApiStep.signals {W W' : World} (h : ApiStep W W') :
    (W.finalized = false ∧ ∃ fuel a ph t soff, initSignal W.cfg.fl fuel a = .ok (ph, t, soff) ∧
      W' = W.addNodeRes a ph t soff) ∨
    (W.finalized = true ∧ W.T < W.tsize ∧ W.tick = .ok W') ∨
    (∃ n sg off reset, n < W.nNodes ∧ SameSig (W.overrideSignal n sg off reset) W') ∨
    SameSig W W' := by
  by_cases ho : ∃ n sg off reset, n < W.nNodes ∧ SameSig (W.overrideSignal n sg off reset) W'
  · exact .inr (.inr (.inl ho))
  by_cases hn : W.finalized = false ∧ ∃ fuel a ph t soff, initSignal W.cfg.fl fuel a = .ok (ph, t, soff) ∧
      W' = W.addNodeRes a ph t soff
  · exact .inl hn
  have hs : ∀ W', Soft W W' → SameSig W W' := by
    rintro W' ⟨_, _, _, _, _, _, _, rfl, -⟩; exact ⟨rfl, rfl, rfl, rfl, rfl⟩
  have hk := h.kinds
  cases h with
  | addNode hf h =>
    obtain ⟨ph, t, soff, h1, -, hr⟩ := addNode_ok h
    exact absurd ⟨hf, _, _, ph, t, soff, h1, hr⟩ hn
  | addLink hf h =>
    obtain ⟨s, e, nm, k, p, -, -, -, -, -, -, rfl⟩ := addLink_ok h
    exact .inr (.inr (.inr ⟨rfl, rfl, rfl, rfl, rfl⟩))
  | addVehicle h =>
    obtain ⟨o, d, dep, pref, cache, lp, la, nm, -, -, -, -, -, -, -, -, rfl⟩ := addVehicle_ok h
    exact .inr (.inr (.inr ⟨rfl, rfl, rfl, rfl, rfl⟩))
  | @finalize tm hf =>
    obtain ⟨ts, tta, fc, fr, la, hr⟩ := finalize_frame W tm
    rw [hr]
    exact .inr (.inr (.inr ⟨rfl, rfl, rfl, rfl, rfl⟩))
  | tick hf hT h => exact .inr (.inl ⟨hf, hT, h⟩)
  | endExec => exact .inr (.inr (.inr ⟨rfl, rfl, rfl, rfl, rfl⟩))
  | overrideSignal hlt => exact absurd ⟨_, _, _, _, hlt, ⟨rfl, rfl, rfl, rfl, rfl⟩⟩ ho
  | overrideSignalGroups hlt h =>
    exfalso
    unfold World.overrideSignalGroups at h
    split at h
    · simp at h
    · split at h
      · simp at h
      · simp only [Except.ok.injEq] at h
        subst h
        exact ho ⟨_, _, _, _, hlt, ⟨rfl, rfl, rfl, rfl, rfl⟩⟩
  | enforceRoute _ h =>
    unfold World.enforceRoute at h
    rw [bind_ok] at h
    obtain ⟨r, _, h⟩ := h
    simp only [pure_ok] at h
    subst h
    exact .inr (.inr (.inr ⟨rfl, rfl, rfl, rfl, rfl⟩))
  | setLinksPrefer _ h =>
    unfold World.setLinksPrefer at h
    rw [bind_ok] at h
    obtain ⟨r, _, h⟩ := h
    simp only [pure_ok] at h
    subst h
    exact .inr (.inr (.inr ⟨rfl, rfl, rfl, rfl, rfl⟩))
  | setLinksAvoid _ h =>
    unfold World.setLinksAvoid at h
    rw [bind_ok] at h
    obtain ⟨r, _, h⟩ := h
    simp only [pure_ok] at h
    subst h
    exact .inr (.inr (.inr ⟨rfl, rfl, rfl, rfl, rfl⟩))
  | addDest _ _ h => exact .inr (.inr (.inr (hs _ (addDest_soft h))))
  | addTripRequest h =>
    unfold World.addTripRequest at h
    rw [bind_ok] at h
    obtain ⟨_, _, h⟩ := h
    rw [bind_ok] at h
    obtain ⟨_, _, h⟩ := h
    simp only [pure_ok] at h
    subst h
    exact .inr (.inr (.inr ⟨rfl, rfl, rfl, rfl, rfl⟩))
  | @assignTaxi _ v r _ h =>
    unfold World.assignTaxi at h
    split at h
    · simp at h
    · rw [bind_ok] at h
      obtain ⟨W1, h1, h⟩ := h
      simp only [pure_ok] at h
      subst h
      refine .inr (.inr (.inr (hs _ ?_)))
      refine ((addDest_soft h1).trans (setEvent_soft W1 v (W1.H.orig r) (some (.getOn r)))).trans ?_
      exact ⟨_, _, _, _, _, _, _, rfl, fun _ _ => rfl⟩
  | setCapOut => exact .inr (.inr (.inr ⟨rfl, rfl, rfl, rfl, rfl⟩))
  | setCapIn => exact .inr (.inr (.inr ⟨rfl, rfl, rfl, rfl, rfl⟩))
  | changeFreeFlowSpeed _ h =>
    unfold World.changeFreeFlowSpeed at h
    split at h
    · split at h
      · simp at h
      · dsimp only at h
        split at h
        · simp at h
        · simp only [Except.ok.injEq] at h
          subst h
          exact .inr (.inr (.inr ⟨rfl, rfl, rfl, rfl, rfl⟩))
    · simp only [Except.ok.injEq] at h
      subst h; exact .inr (.inr (.inr ⟨rfl, rfl, rfl, rfl, rfl⟩))
  | @changeJamDensity _ l q _ he h =>
    unfold World.changeJamDensity at h
    split at h
    · split at h
      · simp at h
      · dsimp only at h
        split at h
        · simp at h
        · simp only [Except.ok.injEq] at h
          subst h
          exact .inr (.inr (.inr ⟨rfl, rfl, rfl, rfl, rfl⟩))
    · simp only [Except.ok.injEq] at h
      subst h; exact .inr (.inr (.inr ⟨rfl, rfl, rfl, rfl, rfl⟩))
  | reseed => exact .inr (.inr (.inr ⟨rfl, rfl, rfl, rfl, rfl⟩))

theorem findPhase_valid {fl : ℚ → ℚ} {signal : List ℚ} {p : ℕ} {t : ℚ} : ∀ {fuel : ℕ} {off : ℚ} {i : ℕ},
    findPhase fl signal fuel off i = .ok (p, t) → p < signal.length ∧ ∃ g, signal[p]? = some g ∧ t < g := by
  intro fuel
  induction fuel with
  | zero => intro off i h; simp [findPhase] at h
  | succ k ih =>
    intro off i h
    unfold findPhase at h
    split at h
    · simp at h
    · rename_i g hg
      split at h
      · rename_i ho
        simp only [Except.ok.injEq, Prod.mk.injEq] at h
        obtain ⟨rfl, rfl⟩ := h
        exact ⟨(List.getElem?_eq_some_iff.mp hg).1, g, hg, ho⟩
      · exact ih h

theorem initSignal_valid {fl : ℚ → ℚ} {fuel : ℕ} {a : NodeArgs} {ph : ℕ} {t soff : ℚ}
    (h : initSignal fl fuel a = .ok (ph, t, soff)) : ph < a.signal.length := by
  unfold initSignal at h
  dsimp only at h
  split at h
  · rename_i hs
    simp only [Except.ok.injEq, Prod.mk.injEq] at h
    rw [hs, ← h.1]; simp
  · split at h
    · rename_i i t' hf
      simp only [Except.ok.injEq, Prod.mk.injEq] at h
      obtain ⟨rfl, rfl, rfl⟩ := h
      exact (findPhase_valid hf).1
    · simp at h

theorem sigNext_valid {fl : ℚ → ℚ} {dt : ℚ} {g : List ℚ} {s : ℕ × ℚ} (h : s.1 < g.length) :
    (sigNext fl dt g s).1 < g.length := by
  unfold sigNext
  split
  · split <;> simp <;> omega
  · exact h

/-- The phase index stays valid when the number of phases of a node is not changed. -/
theorem phase_valid {k : NodeId → ℕ} {OK : World → Prop}
    (hO : ∀ W, OK W → ∀ n, n < W.nNodes → (W.N.signal n).length = k n) {W : World} (h : Reachable OK W) :
    ∀ n, n < W.nNodes → W.N.phase n < k n := by
  induction h with
  | new => intro n hn; simp [World.new] at hn
  | @next W W' hr hs hok ih =>
    intro n hn
    rcases hs.signals with ⟨hf, fuel, a, ph, t, soff, hi, rfl⟩ | ⟨hf, hT, ht⟩ | ⟨m, sg, off, reset, hm, he⟩ | he
    · by_cases e : n = W.nNodes
      · subst e
        have h1 := hO _ hok _ hn
        have h2 := initSignal_valid hi
        simp only [addNodeRes, upd_same] at h1 ⊢
        omega
      · simp only [addNodeRes, upd_ne _ _ e]
        exact ih n (Nat.lt_of_le_of_ne (Nat.le_of_lt_succ hn) e)
    · have h1 := hO _ hok _ hn
      obtain ⟨W1, hst, rfl⟩ := tick_ok ht
      have hn' : n < W.nNodes := by
        obtain ⟨W6, hss, rfl⟩ := step_star (hr.inv.core hf) hst
        have : n < W6.nNodes := hn
        rw [hss.static.nNodes] at this; exact this
      obtain ⟨b1, b2, b3, -⟩ := step_signal hr.inv hf hst hn'
      have h3 := sigNext_valid (fl := W.cfg.fl) (dt := W.cfg.deltat) (s := (W.N.phase n, W.N.signalT n)) b1
      rw [← b3] at h3
      have h4 : (W1.N.signal n).length = k n := h1
      rw [b2] at h4
      rw [h4] at h3; exact h3
    · have h1 := hO _ hok _ hn
      rw [he.nNodes] at hn
      rw [he.phase]
      have := ih n hn
      unfold overrideSignal
      dsimp only
      cases reset
      · exact this
      · simp only [if_true]
        rw [upd_apply]
        split
        · exact Nat.lt_of_le_of_lt (Nat.zero_le _) this
        · exact this
    · rw [he.nNodes] at hn
      rw [he.phase]; exact ih n hn

/-! ### Closed form -/

theorem planIdx_at : ∀ (d : List ℕ) (p k : ℕ), p < d.length → k < d.getD p 0 →
    planIdx d (planStart d p + k) = p := by
  intro d
  induction d with
  | nil => intro p k h; simp at h
  | cons x xs ih =>
    intro p k hp hk
    cases p with
    | zero =>
      simp only [planStart, List.take_zero, List.sum_nil, Nat.zero_add, planIdx]
      have : k < x := hk
      rw [if_pos this]
    | succ p =>
      have e : planStart (x :: xs) (p + 1) + k = x + (planStart xs p + k) := by
        simp [planStart]; omega
      rw [e, planIdx, if_neg (by omega), Nat.add_sub_cancel_left]
      rw [ih p k (by simpa using hp) (by simpa using hk)]

theorem planStart_succ (d : List ℕ) {p : ℕ} (hp : p < d.length) :
    planStart d (p + 1) = planStart d p + d.getD p 0 := by
  unfold planStart
  rw [List.take_add_one, List.sum_append, List.getD_eq_getElem?_getD, List.getElem?_eq_getElem hp]
  simp

theorem planStart_le (d : List ℕ) (p : ℕ) : planStart d p ≤ d.sum := by
  unfold planStart
  conv_rhs => rw [← List.take_append_drop p d, List.sum_append]
  omega

theorem planStart_all (d : List ℕ) : planStart d d.length = d.sum := by simp [planStart]

theorem planPhase_at {d : List ℕ} {p k : ℕ} (hp : p < d.length) (hk : k < d.getD p 0) :
    planPhase d (planStart d p + k) = p := by
  unfold planPhase
  have h1 := planStart_le d (p + 1)
  rw [planStart_succ d hp] at h1
  rw [Nat.mod_eq_of_lt (by omega)]
  exact planIdx_at d p k hp hk

/-- remaining steps of a phase with green time `g` and elapsed time `t` -/
def remSteps (dt g t : ℚ) : ℕ := (⌊(g - t) / dt⌋ + 1).toNat

theorem lt_remSteps {dt g t : ℚ} (hdt : 0 < dt) {j : ℕ} : j < remSteps dt g t ↔ t + j * dt ≤ g := by
  unfold remSteps
  rw [Int.lt_toNat, Int.lt_add_one_iff, Int.le_floor, le_div_iff₀ hdt]
  push_cast
  constructor <;> intro h <;> linarith

theorem sig_hold {dt : ℚ} (hdt : 0 < dt) {g : List ℚ} {p : ℕ} {t : ℚ} {j : ℕ}
    (hj : j ≤ remSteps dt (g.getD p 0) t) : (sigNext id dt g)^[j] (p, t) = (p, t + j * dt) := by
  induction j with
  | zero => simp
  | succ j ih =>
    rw [Function.iterate_succ_apply', ih (by omega)]
    have : t + j * dt ≤ g.getD p 0 := (lt_remSteps hdt).mp (by omega)
    unfold sigNext
    dsimp only
    rw [if_neg (by linarith)]
    simp only [id, Prod.mk.injEq, true_and]
    push_cast; ring

theorem sig_switch {dt : ℚ} (hdt : 0 < dt) {g : List ℚ} {p : ℕ} {t : ℚ} :
    (sigNext id dt g)^[remSteps dt (g.getD p 0) t + 1] (p, t) =
      (if g.length ≤ p + 1 then 0 else p + 1, dt) := by
  rw [Function.iterate_succ_apply', sig_hold hdt (le_refl _)]
  have : ¬ (t + (remSteps dt (g.getD p 0) t : ℕ) * dt ≤ g.getD p 0) := fun h =>
    absurd ((lt_remSteps hdt).mpr h) (by omega)
  unfold sigNext
  dsimp only
  rw [if_pos (by linarith)]
  simp

theorem greenSteps_eq {dt g : ℚ} (hdt : 0 < dt) (hg : 0 ≤ g) :
    greenSteps dt g = remSteps dt g dt + 1 := by
  unfold greenSteps remSteps
  have : (g - dt) / dt = g / dt - 1 := by field_simp
  rw [this]
  have h1 : ⌊g / dt - 1⌋ = ⌊g / dt⌋ - 1 := by
    have := Int.floor_sub_intCast (g / dt) 1
    push_cast at this; exact this
  rw [h1]
  have : 0 ≤ ⌊g / dt⌋ := Int.floor_nonneg.mpr (div_nonneg hg hdt.le)
  omega

theorem planPhase_add_sum (d : List ℕ) (k : ℕ) : planPhase d (d.sum + k) = planPhase d k := by
  unfold planPhase; rw [Nat.add_mod_left]

/-- From the start of phase `q` the phases follow the plan. -/
theorem sig_cycle {dt : ℚ} (hdt : 0 < dt) {g : List ℚ} (hg : ∀ x ∈ g, 0 ≤ x) (k : ℕ) :
    ∀ q, q < g.length → ((sigNext id dt g)^[k] (q, dt)).1 =
      planPhase (g.map (greenSteps dt)) (planStart (g.map (greenSteps dt)) q + k) := by
  induction k using Nat.strong_induction_on with
  | _ k ih =>
    intro q hq
    have hgq : 0 ≤ g.getD q 0 := by
      rw [List.getD_eq_getElem?_getD, List.getElem?_eq_getElem hq]
      exact hg _ (List.getElem_mem hq)
    have hq' : q < (g.map (greenSteps dt)).length := by simpa using hq
    have hd : (g.map (greenSteps dt)).getD q 0 = greenSteps dt (g.getD q 0) := by
      simp [List.getD_eq_getElem?_getD, List.getElem?_eq_getElem hq]
    have hgs := greenSteps_eq hdt hgq
    rcases Nat.lt_or_ge k (greenSteps dt (g.getD q 0)) with hlt | hge
    · rw [sig_hold hdt (by omega), planPhase_at hq' (by rw [hd]; exact hlt)]
    · obtain ⟨j, rfl⟩ := Nat.exists_eq_add_of_le hge
      have e : (sigNext id dt g)^[greenSteps dt (g.getD q 0) + j] (q, dt) =
          (sigNext id dt g)^[j] (if g.length ≤ q + 1 then 0 else q + 1, dt) := by
        rw [Nat.add_comm, Function.iterate_add_apply, hgs, sig_switch hdt]
      have hpos : 0 < greenSteps dt (g.getD q 0) := by omega
      rw [e, ih j (by omega) _ (by split <;> omega)]
      have hs := planStart_succ _ hq'
      rw [hd] at hs
      by_cases hw : g.length ≤ q + 1
      · rw [if_pos hw]
        have hql : q + 1 = (g.map (greenSteps dt)).length := by simp; omega
        rw [hql, planStart_all] at hs
        rw [← Nat.add_assoc, ← hs, planPhase_add_sum]
        simp [planStart]
      · rw [if_neg hw, hs, Nat.add_assoc]

theorem sig_schedule {dt : ℚ} (hdt : 0 < dt) {g : List ℚ} (hg : ∀ x ∈ g, 0 ≤ x) {p : ℕ}
    (hp : p < g.length) (t : ℚ) (i : ℕ) :
    ((sigNext id dt g)^[i + 1] (p, t)).1 = schedule dt g p t i := by
  unfold schedule
  dsimp only
  change _ = if i < remSteps dt (g.getD p 0) t then p else
    planPhase (g.map (greenSteps dt)) (planStart (g.map (greenSteps dt)) (p + 1) +
      (i - remSteps dt (g.getD p 0) t))
  split
  · rw [sig_hold hdt (by omega)]
  · rename_i h
    obtain ⟨j, hj⟩ := Nat.exists_eq_add_of_le (Nat.le_of_not_lt h)
    have e : i + 1 = j + (remSteps dt (g.getD p 0) t + 1) := by omega
    rw [e, Function.iterate_add_apply, sig_switch hdt, sig_cycle hdt hg _ _ (by split <;> omega)]
    have e2 : i - remSteps dt (g.getD p 0) t = j := by omega
    rw [e2]
    by_cases hw : g.length ≤ p + 1
    · rw [if_pos hw]
      have : p + 1 = (g.map (greenSteps dt)).length := by simp; omega
      rw [this, planStart_all, planPhase_add_sum]
      simp [planStart]
    · rw [if_neg hw]

end UX
