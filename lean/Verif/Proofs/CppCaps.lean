import Verif.Proofs.CppRuns

/-!
# Capacities and signals during a run of the C++ engine
-/

namespace UX.Cpp
open CWorld Relation Spec

/-! ## Counters -/

/-- A counter that is refilled at each time step and drawn from by the passages `f` selects. -/
inductive Meter (dN rate full : ℚ) (f : Pass → Bool) : ℕ → ℚ → List Pass → ℕ → ℚ → Prop
  | nil (s : ℕ) (c : ℚ) : Meter dN rate full f s c [] s c
  | cons {s t : ℕ} {c c1 c' : ℚ} {h h' : List Pass} (ht : ∀ e ∈ h, e.time = s) (h1 : c1 ≤ c + rate)
      (h2 : c1 ≤ max c full) (h3 : 0 ≤ c → 0 ≤ c1 - (h.filter f).length * dN)
      (r : Meter dN rate full f (s + 1) (c1 - (h.filter f).length * dN) h' t c') :
      Meter dN rate full f s c (h ++ h') t c'

theorem Meter.le {dN rate full c c' : ℚ} {f : Pass → Bool} {s t : ℕ} {h : List Pass}
    (m : Meter dN rate full f s c h t c') : s ≤ t ∧ ∀ e ∈ h, s ≤ e.time := by
  induction m with
  | nil s c => exact ⟨le_rfl, fun e he => by simp at he⟩
  | cons ht _ _ _ _ ih =>
    refine ⟨by omega, fun e he => ?_⟩
    rcases List.mem_append.1 he with he | he
    · rw [ht e he]
    · have := ih.2 e he; omega

theorem Meter.nonneg {dN rate full c c' : ℚ} {f : Pass → Bool} {s t : ℕ} {h : List Pass}
    (m : Meter dN rate full f s c h t c') (hc : 0 ≤ c) : 0 ≤ c' := by
  induction m with
  | nil s c => exact hc
  | cons _ _ _ h3 _ ih => exact ih (h3 hc)

theorem Meter.bound {dN rate full c c' : ℚ} {f : Pass → Bool} {s t : ℕ} {h : List Pass} (hN : 0 ≤ dN)
    (m : Meter dN rate full f s c h t c') : c' ≤ max c full := by
  induction m with
  | nil s c => exact le_max_left _ _
  | @cons s t c c1 c' h h' _ _ h2 _ _ ih =>
    refine ih.trans (max_le ?_ (le_max_right _ _))
    have : (0 : ℚ) ≤ (h.filter f).length * dN := by positivity
    linarith

theorem during_append (s t : ℕ) (h h' : List Pass) : during s t (h ++ h') = during s t h ++ during s t h' := by
  simp [during]

theorem Meter.first {dN rate full c c' : ℚ} {f : Pass → Bool} {s t : ℕ} {h : List Pass} (hr : 0 ≤ rate)
    (m : Meter dN rate full f s c h t c') (hc : 0 ≤ c) :
    ∀ u, s ≤ u → u ≤ t → (during s u (h.filter f)).length * dN ≤ c + (u - s : ℕ) * rate := by
  induction m with
  | nil s c =>
    intro u h1 h2
    have : u = s := by omega
    subst this; simpa [during] using hc
  | @cons s t c c1 c' h h' ht h1 h2 h3 m ih =>
    intro u hu1 hu2
    have hm := m.le
    rw [List.filter_append, during_append, List.length_append]
    by_cases e : u = s
    · subst e
      have z1 : during u u (h.filter f) = [] := filter_none (fun x _ => by simp)
      have z2 : during u u (h'.filter f) = [] := filter_none (fun x _ => by simp)
      rw [z1, z2]; simpa using hc
    · have z1 : during s u (h.filter f) = h.filter f := filter_all (fun x hx => by
        have := ht x (List.mem_filter.1 hx).1; simp; omega)
      have z2 : during s u (h'.filter f) = during (s + 1) u (h'.filter f) := by
        unfold during
        refine List.filter_congr (fun x hx => ?_)
        have := hm.2 x (List.mem_filter.1 hx).1
        rw [decide_eq_decide]
        constructor
        · intro hh; exact ⟨this, hh.2⟩
        · intro hh; exact ⟨by omega, hh.2⟩
      rw [z1, z2]
      have key := ih (h3 hc) u (by omega) hu2
      have hu : ((u - s : ℕ) : ℚ) = (u - (s + 1) : ℕ) + 1 := by
        rw [show u - s = (u - (s + 1)) + 1 by omega]; push_cast; ring
      rw [hu]
      push_cast
      linarith

theorem Meter.window {dN rate full c c' : ℚ} {f : Pass → Bool} {s t : ℕ} {h : List Pass} (hN : 0 ≤ dN)
    (hr : 0 ≤ rate) (m : Meter dN rate full f s c h t c') (hc : 0 ≤ c) :
    ∀ a u, s ≤ a → a ≤ u → u ≤ t → (during a u (h.filter f)).length * dN ≤ max c full + (u - a : ℕ) * rate := by
  induction m with
  | nil s c =>
    intro a u h1 h2 h3
    have : u = a := by omega
    subst this; simp [during, hc]
  | @cons s t c c1 c' h h' ht h1 h2 h3 m ih =>
    intro a u ha hu1 hu2
    by_cases e : a = s
    · subst e
      have := (Meter.cons ht h1 h2 h3 m).first hr hc u hu1 hu2
      have : c ≤ max c full := le_max_left _ _
      linarith
    · rw [List.filter_append, during_append, List.length_append]
      have z1 : during a u (h.filter f) = [] := filter_none (fun x hx => by
        have := ht x (List.mem_filter.1 hx).1; simp; omega)
      rw [z1]
      have key := ih (h3 hc) a u (by omega) hu1 hu2
      have b : max (c1 - (h.filter f).length * dN) full ≤ max c full := by
        refine max_le ?_ (le_max_right _ _)
        have : (0 : ℚ) ≤ (h.filter f).length * dN := by positivity
        linarith
      simp only [List.length_nil, Nat.zero_add]
      linarith

theorem Meter.limited {dN rate full c c' : ℚ} {f : Pass → Bool} {s t : ℕ} {h : List Pass} (hN : 0 ≤ dN)
    (hr : 0 ≤ rate) (m : Meter dN rate full f s c h t c') (hc : 0 ≤ c) :
    Limited dN rate full c s t (h.filter f) := ⟨m.first hr hc, m.window hN hr hc⟩

/-! ## Links -/

theorem refill_le {W : CWorld} (hfl : W.g.fl = id) {lanes : ℕ} {cap rem : ℚ} (hc : cap < 10000000000)
    (hr : 0 ≤ cap * W.g.deltaT) :
    W.refill lanes cap rem ≤ rem + cap * W.g.deltaT ∧
    W.refill lanes cap rem ≤ max rem (W.g.deltaN * lanes + cap * W.g.deltaT) ∧
    rem ≤ W.refill lanes cap rem := by
  unfold CWorld.refill
  rw [hfl, if_pos hc]
  simp only [id]
  split
  · rename_i h
    exact ⟨le_rfl, le_max_of_le_right (by linarith), by linarith⟩
  · exact ⟨by linarith, le_max_left _ _, le_rfl⟩

theorem id_flOK : FlOK (id : ℚ → ℚ) := ⟨monotone_id, rfl, fun _ => rfl⟩

theorem RunHist.meterIn {W W' : CWorld} {h : List Pass} (r : RunHist W h W') (hfl : W.g.fl = id) {l : ℕ}
    (hl : l < W.g.nLinks) (hc : (W.link l).capIn < 10000000000) (hr : 0 ≤ (W.link l).capIn * W.g.deltaT) :
    Meter W.g.deltaN ((W.link l).capIn * W.g.deltaT)
      (W.g.deltaN * (W.link l).lanes + (W.link l).capIn * W.g.deltaT) (fun e => e.enters = some l)
      W.g.timestep (W.link l).capInRem h W'.g.timestep (W'.link l).capInRem := by
  induction r with
  | nil W => exact .nil _ _
  | @cons W V W' h h' s r ih =>
    have e1 := CGlob.fix_fl s.fixn
    have e2 := CGlob.fix_deltaN s.fixn
    have e3 := CGlob.fix_deltaT s.fixn
    have e4 := s.parn.capIn l
    have e5 := s.parn.lanes l
    have m := ih (by rw [e1]; exact hfl) (by rw [CGlob.fix_nLinks s.fixn]; exact hl)
      (by rw [e4]; exact hc) (by rw [e4, e3]; exact hr)
    obtain ⟨X, rr, _, _, hcc⟩ := s.rep
    obtain ⟨_, _, c3, _⟩ := (hcc l).2 hl
    obtain ⟨_, _, _, r4, _⟩ := rr.counts l
    obtain ⟨n1, _⟩ := rr.nonneg (by rw [hfl]; exact id_flOK) l
    obtain ⟨q1, q2, q3⟩ := refill_le hfl (lanes := (W.link l).lanes) (rem := (W.link l).capInRem) hc hr
    have hv : (V.next.link l).capInRem = W.refill (W.link l).lanes (W.link l).capIn (W.link l).capInRem -
        (h.filter (fun e => e.enters = some l)).length * W.g.deltaN := by
      rw [← c3, ← subN_exact hfl]; exact r4
    rw [e2, e3, e4, e5, s.timen, hv] at m
    refine .cons s.time_eq q1 q2 (fun h0 => ?_) m
    rw [← hv]
    exact n1 (by rw [c3]; linarith)

theorem RunHist.meterOut {W W' : CWorld} {h : List Pass} (r : RunHist W h W') (hfl : W.g.fl = id) {l : ℕ}
    (hl : l < W.g.nLinks) (hc : (W.link l).capOut < 10000000000) (hr : 0 ≤ (W.link l).capOut * W.g.deltaT) :
    Meter W.g.deltaN ((W.link l).capOut * W.g.deltaT)
      (W.g.deltaN * (W.link l).lanes + (W.link l).capOut * W.g.deltaT)
      (fun e => e.leaves = some l ∧ e.enters ≠ none)
      W.g.timestep (W.link l).capOutRem h W'.g.timestep (W'.link l).capOutRem := by
  induction r with
  | nil W => exact .nil _ _
  | @cons W V W' h h' s r ih =>
    have e1 := CGlob.fix_fl s.fixn
    have e2 := CGlob.fix_deltaN s.fixn
    have e3 := CGlob.fix_deltaT s.fixn
    have e4 := s.parn.capOut l
    have e5 := s.parn.lanes l
    have m := ih (by rw [e1]; exact hfl) (by rw [CGlob.fix_nLinks s.fixn]; exact hl)
      (by rw [e4]; exact hc) (by rw [e4, e3]; exact hr)
    obtain ⟨X, rr, _, _, hcc⟩ := s.rep
    obtain ⟨_, _, _, c3⟩ := (hcc l).2 hl
    obtain ⟨_, _, _, _, r4⟩ := rr.counts l
    obtain ⟨_, n1⟩ := rr.nonneg (by rw [hfl]; exact id_flOK) l
    obtain ⟨q1, q2, q3⟩ := refill_le hfl (lanes := (W.link l).lanes) (rem := (W.link l).capOutRem) hc hr
    have hv : (V.next.link l).capOutRem = W.refill (W.link l).lanes (W.link l).capOut (W.link l).capOutRem -
        (h.filter (fun e => e.leaves = some l ∧ e.enters ≠ none)).length * W.g.deltaN := by
      rw [← c3, ← subN_exact hfl]; exact r4
    rw [e2, e3, e4, e5, s.timen, hv] at m
    refine .cons s.time_eq q1 q2 (fun h0 => ?_) m
    rw [← hv]
    exact n1 (by rw [c3]; linarith)

/-! ## Nodes -/

theorem through_cons (W : CWorld) (n : ℕ) (e : Pass) (h : List Pass) :
    through W n (e :: h) = if (e.leaves.map (fun a => (W.link a).dst)) = some n ∧ e.enters ≠ none
      then e :: through W n h else through W n h := by
  simp only [through, List.filter_cons, decide_eq_true_eq]

theorem NRep.count {W : CWorld} {r r' : ℕ → ℚ} {h : List Pass} (k : NRep W r h r') (hfl : W.g.fl = id)
    {n : ℕ} (hn : 0 ≤ (W.node n).flowCap) :
    r' n = r n - (through W n h).length * W.g.deltaN ∧ (0 ≤ r n → 0 ≤ r' n) := by
  induction k with
  | nil r => simp [through]
  | @skip r r' e h hs k ih =>
    rw [through_cons, if_neg (fun hh => by rcases hs with hs | hs <;> simp [hs] at hh)]
    exact ih
  | @move r r' e h a ha hb hr hg k ih =>
    obtain ⟨p, q⟩ := ih
    rw [through_cons, ha]
    simp only [Option.map_some]
    by_cases e : (W.link a).dst = n
    · subst e
      rw [if_pos hn] at p q
      simp only [upd, if_pos, hfl, id] at p q
      rw [if_pos ⟨rfl, hb⟩]
      refine ⟨?_, fun h0 => q (by linarith [not_lt.1 hr])⟩
      rw [p]; simp only [List.length_cons]; push_cast; ring
    · rw [if_neg (fun hh => e (by simpa using hh.1))]
      have : (if 0 ≤ (W.node (W.link a).dst).flowCap then
          upd r (W.link a).dst (W.g.fl (r (W.link a).dst - W.g.deltaN)) else r) n = r n := by
        split
        · simp only [upd, if_neg (fun hh : n = (W.link a).dst => e hh.symm)]
        · rfl
      rw [this] at p q
      exact ⟨p, q⟩

theorem through_congr {W W' : CWorld} (s : SamePar W W') (n : ℕ) (h : List Pass) :
    through W' n h = through W n h := by
  unfold through
  simp only [s.dst]

/-- Passages that a node lets through at once beside the refill. -/
def nodeLanes (N : CNode) : ℤ := if 0 < N.lanes then N.lanes else 1

theorem RunHist.meterNode {W W' : CWorld} {h : List Pass} (r : RunHist W h W') (hfl : W.g.fl = id) {n : ℕ}
    (hl : n < W.g.nNodes) (hc : 0 ≤ (W.node n).flowCap) (hr : 0 ≤ (W.node n).flowCap * W.g.deltaT) :
    Meter W.g.deltaN ((W.node n).flowCap * W.g.deltaT)
      (W.g.deltaN * nodeLanes (W.node n) + (W.node n).flowCap * W.g.deltaT)
      (fun e => (e.leaves.map (fun a => (W.link a).dst)) = some n ∧ e.enters ≠ none)
      W.g.timestep (W.node n).flowRem h W'.g.timestep (W'.node n).flowRem := by
  induction r with
  | nil W => exact .nil _ _
  | @cons W V W' h h' s r ih =>
    have e1 := CGlob.fix_fl s.fixn
    have e2 := CGlob.fix_deltaN s.fixn
    have e3 := CGlob.fix_deltaT s.fixn
    have e4 := s.parn.flowCap n
    have e5 := s.parn.nlanes n
    have m := ih (by rw [e1]; exact hfl) (by rw [CGlob.fix_nNodes s.fixn]; exact hl)
      (by rw [e4]; exact hc) (by rw [e4, e3]; exact hr)
    have e6 : nodeLanes (V.next.node n) = nodeLanes (W.node n) := by unfold nodeLanes; rw [e5]
    obtain ⟨q, hq, k⟩ := s.nodes
    have c3 := hq n hl
    have e7 : V.g.fl = id := e1.trans hfl
    have e8 : V.g.deltaN = W.g.deltaN := e2
    obtain ⟨r4, n1⟩ := k.count e7 (n := n) (by rw [s.par.flowCap]; exact hc)
    rw [through_congr s.par, e8] at r4
    have q123 : q n ≤ (W.node n).flowRem + (W.node n).flowCap * W.g.deltaT ∧
        q n ≤ max (W.node n).flowRem (W.g.deltaN * nodeLanes (W.node n) + (W.node n).flowCap * W.g.deltaT) ∧
        (W.node n).flowRem ≤ q n := by
      rw [c3]
      have key : ∀ z : ℚ, (if (W.node n).flowRem < W.g.deltaN * z
            then (W.node n).flowRem + (W.node n).flowCap * W.g.deltaT else (W.node n).flowRem) ≤
            (W.node n).flowRem + (W.node n).flowCap * W.g.deltaT ∧
          (if (W.node n).flowRem < W.g.deltaN * z
            then (W.node n).flowRem + (W.node n).flowCap * W.g.deltaT else (W.node n).flowRem) ≤
            max (W.node n).flowRem (W.g.deltaN * z + (W.node n).flowCap * W.g.deltaT) ∧
          (W.node n).flowRem ≤ (if (W.node n).flowRem < W.g.deltaN * z
            then (W.node n).flowRem + (W.node n).flowCap * W.g.deltaT else (W.node n).flowRem) := by
        intro z
        split
        · exact ⟨le_rfl, le_max_of_le_right (by linarith), by linarith⟩
        · exact ⟨by linarith, le_max_left _ _, le_rfl⟩
      unfold flowNext nodeLanes
      simp only [if_pos hc, hfl, id]
      by_cases hL : 0 < (W.node n).lanes
      · simp only [if_pos hL]
        exact key _
      · simp only [if_neg hL]
        have := key 1
        simpa using this
    obtain ⟨q1, q2, q3⟩ := q123
    have hv : (V.next.node n).flowRem = q n -
        (h.filter (fun e => (e.leaves.map (fun a => (W.link a).dst)) = some n ∧ e.enters ≠ none)).length *
          W.g.deltaN := r4
    simp only [s.parn.dst] at m
    rw [e2, e3, e4, e6, s.timen, hv] at m
    refine .cons s.time_eq q1 q2 (fun h0 => ?_) m
    rw [← hv]
    exact n1 (by linarith)

end UX.Cpp
