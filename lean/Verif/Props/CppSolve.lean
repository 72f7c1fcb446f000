import Verif.Spec.CppSolve
import Verif.Props.CppSwap

/-!
# C96: the solvers of the C++ traffic assignment
-/

namespace UX.Cpp
open Spec CWorld

theorem Spec.SameScenario.symm {W V : CWorld} (h : SameScenario W V) : SameScenario V W :=
  ⟨h.1.symm, h.2.1.symm, fun l hl => ⟨(h.2.2.1 l (h.1 ▸ hl)).1.symm, (h.2.2.1 l (h.1 ▸ hl)).2.symm⟩,
    fun v hv => ⟨(h.2.2.2 v (h.2.1 ▸ hv)).1.symm, (h.2.2.2 v (h.2.1 ▸ hv)).2.symm⟩⟩

theorem Spec.SameScenario.trans {W V U : CWorld} (h : SameScenario W V) (h' : SameScenario V U) : SameScenario W U :=
  ⟨h'.1.trans h.1, h'.2.1.trans h.2.1,
    fun l hl => ⟨(h'.2.2.1 l (h.1.symm ▸ hl)).1.trans (h.2.2.1 l hl).1, (h'.2.2.1 l (h.1.symm ▸ hl)).2.trans (h.2.2.1 l hl).2⟩,
    fun v hv => ⟨(h'.2.2.2 v (h.2.1.symm ▸ hv)).1.trans (h.2.2.2 v hv).1,
      (h'.2.2.2 v (h.2.1.symm ▸ hv)).2.trans (h.2.2.2 v hv).2⟩⟩

theorem Spec.SetsOK.congr {W V : CWorld} (h : SameScenario W V) {sets : ℕ → ℕ → Option (List (List ℕ))} (s : SetsOK W sets) :
    SetsOK V sets := by
  intro o d rs r hs hr
  obtain ⟨⟨w1, w2, w3⟩, l, hl, hd⟩ := s o d rs r hs hr
  have e : ∀ m ∈ r, (V.link m).src = (W.link m).src ∧ (V.link m).dst = (W.link m).dst := fun m hm => h.2.2.1 m (w3 m hm)
  refine ⟨⟨fun m hm => ?_, ?_, fun m hm => h.1 ▸ w3 m hm⟩, l, hl, ?_⟩
  · rw [(e m (List.mem_of_head? hm)).1]; exact w1 m hm
  · refine List.IsChain.imp_of_mem_imp (fun a b ha hb hab => ?_) w2
    rw [(e a ha).2, (e b hb).1]; exact hab
  · rw [(e l (List.mem_of_getLast? hl)).2]; exact hd

theorem enforceFrom_clean (rs : List (List ℕ)) : ∀ {W : CWorld} (i : ℕ), CleanReach W → CleanReach (W.enforceFrom i rs) := by
  induction rs with
  | nil => intro W i h; exact h
  | cons r rs ih =>
    intro W i h
    simp only [enforceFrom]
    split
    · split
      · exact ih _ h
      · exact ih _ (h.step (CleanStep.edit _ _))
    · exact h

theorem enforce_same (W : CWorld) (rs : List (List ℕ)) : SameScenario W (W.batchEnforce rs) := by
  obtain ⟨e1, e2, _, e4⟩ := enforceFrom_spec rs W 0
  refine ⟨congrArg CGlob.nLinks e1, congrArg CGlob.nVehs e1, fun l _ => ?_, fun v _ => ?_⟩
  · rw [show (W.batchEnforce rs).link = W.link from e2]; exact ⟨rfl, rfl⟩
  · rcases e4 v with ⟨q, _⟩ | ⟨r, _, _, _, _, q⟩ <;> rw [show (W.batchEnforce rs).veh v = _ from q] <;> exact ⟨rfl, rfl⟩

/-- What a run keeps. -/
theorem run_same {W : CWorld} (h : CReach W) {sched : ℕ → CWorld → Sched} (hs : ∀ t V, (sched t V).Valid V) (n : ℕ) :
    SameScenario W (W.mainLoop sched n).1 ∧ (W.mainLoop sched n).1.g.fix = W.g.fix ∧
      ∀ v, ((W.mainLoop sched n).1.veh v).route = (W.veh v).route ∧ ((W.mainLoop sched n).1.veh v).avoid = (W.veh v).avoid := by
  have e := mainLoop_evs h.rest (fun t V _ => (hs t V).2.2.2.1.nodup_iff.2 List.nodup_range) n
  have pl : ∀ l, ((W.mainLoop sched n).1.link l).par = (W.link l).par := e.par.link
  have pv : ∀ v, ((W.mainLoop sched n).1.veh v).par = (W.veh v).par := e.par.veh
  refine ⟨⟨CGlob.fix_nLinks e.fix, CGlob.fix_nVehs e.fix, fun l _ => ?_, fun v _ => ?_⟩, e.fix, fun v => ?_⟩
  · exact ⟨(congrArg CLink.src (pl l) : ((W.mainLoop sched n).1.link l).par.src = (W.link l).par.src),
      (congrArg CLink.dst (pl l) : ((W.mainLoop sched n).1.link l).par.dst = (W.link l).par.dst)⟩
  · exact ⟨(congrArg CVeh.orig (pv v) : ((W.mainLoop sched n).1.veh v).par.orig = (W.veh v).par.orig),
      (congrArg CVeh.dest (pv v) : ((W.mainLoop sched n).1.veh v).par.dest = (W.veh v).par.dest)⟩
  · exact ⟨(congrArg CVeh.route (pv v) : ((W.mainLoop sched n).1.veh v).par.route = (W.veh v).par.route),
      (congrArg CVeh.avoid (pv v) : ((W.mainLoop sched n).1.veh v).par.avoid = (W.veh v).par.avoid)⟩

/-- The world in which a day starts. -/
def startOf (V : CWorld) : Option (List (List ℕ)) → CWorld
  | none => V
  | some rs => V.batchEnforce rs

theorem playDay_eq (V : CWorld) (sched : ℕ → CWorld → Sched) (prev : Option (List (List ℕ))) :
    V.playDay sched prev = match (startOf V prev).mainLoop sched (startOf V prev).g.totalSteps with
      | (W, none) => .ok W
      | (_, some e) => .error (.sim e) := by
  unfold playDay startOf
  cases prev <;> rfl

section
variable {build : ℕ → CWorld} {sched : ℕ → ℕ → CWorld → Sched} {swap : ℕ → CWorld → List SwapRow}
  {keep : Best → CWorld → Except SErr Best} {sets : ℕ → ℕ → Option (List (List ℕ))} {ext : Bool}

theorem dayLoop_ok (hb : ∀ i, GoodBuild (build 0) (build i)) (hsets : SetsOK (build 0) sets)
    (hs : ∀ i t V, (sched i t V).Valid V)
    (hw : ∀ i W, ∃ row, swap i W = (List.range W.g.nVehs).map row ∧
      ∀ v, ∃ flag own alt, row v = W.swapVeh sets ext flag own alt v)
    {K : Best → Prop} (hk : ∀ b W, K b → ∃ b', keep b W = .ok b' ∧ K b') :
    ∀ (k i : ℕ) (prev : Option (List (List ℕ))) (b : Best), K b →
      (∀ n, ((startOf (build i) prev).mainLoop (sched i) n).2 = none) →
      ∃ ds b', dayLoop build sched swap keep k i prev b = .ok (ds, b') ∧ ds.length = k ∧
        (∀ d, ds[0]? = some d → d.world = ((startOf (build i) prev).mainLoop (sched i) (startOf (build i) prev).g.totalSteps).1) ∧
        (∀ (j : ℕ) (d : Day), ds[j]? = some d → CleanReach d.world ∧ SameScenario (build 0) d.world ∧ d.rows = swap (i + j) d.world) ∧
        ∀ (j : ℕ) (d d' : Day), ds[j]? = some d → ds[j + 1]? = some d' → HandedOn d d' := by
  intro k
  induction k with
  | zero => intro i prev b _ _; exact ⟨[], b, rfl, rfl, by simp, by simp, by simp⟩
  | succ k ih =>
    intro i prev b hKb hrun
    obtain ⟨g1, g2, g3, g4, g5, g6, g7⟩ := hb i
    -- the day itself
    have hc0 : CleanReach (startOf (build i) prev) := by
      cases prev with
      | none => exact g1
      | some rs => exact enforceFrom_clean rs 0 g1
    have hsame0 : SameScenario (build i) (startOf (build i) prev) := by
      cases prev with
      | none => exact ⟨rfl, rfl, fun _ _ => ⟨rfl, rfl⟩, fun _ _ => ⟨rfl, rfl⟩⟩
      | some rs => exact enforce_same _ rs
    have hg0 : (startOf (build i) prev).g = (build i).g := by
      cases prev with
      | none => rfl
      | some rs => exact (enforceFrom_spec rs (build i) 0).1
    obtain ⟨W, hW⟩ : ∃ W, (startOf (build i) prev).mainLoop (sched i) (startOf (build i) prev).g.totalSteps = (W, none) :=
      ⟨_, Prod.ext rfl (hrun _)⟩
    have hcW : CleanReach W := hc0.step (CleanStep.run _ _ _ _ (hs i) hW)
    obtain ⟨r1, r2, r3⟩ := run_same hc0.toReach (hs i) (startOf (build i) prev).g.totalSteps
    rw [hW] at r1 r2 r3
    simp only at r1 r2 r3
    have hsameW : SameScenario (build 0) W := (g3.trans hsame0).trans r1
    obtain ⟨b', hb', hKb'⟩ := hk b W hKb
    obtain ⟨row, hrow1, hrow2⟩ := hw i W
    have hflW : W.g.fl = id := (CGlob.fix_fl r2).trans (by rw [hg0]; exact g4)
    have hlogW : W.g.logMode = true := (CGlob.fix_logMode r2).trans (by rw [hg0]; exact g5)
    have hdtW : 0 < W.g.deltaT := by rw [CGlob.fix_deltaT r2, hg0]; exact g6
    have hnW : W.g.nVehs ≠ 0 := by rw [CGlob.fix_nVehs r2, hg0]; omega
    have hnext := next_plans (ext := ext) hcW hlogW hflW hdtW (hsets.congr hsameW) (hb (i + 1)).new
      (hsameW.symm.trans (hb (i + 1)).same) hrow2
    rw [← hrow1] at hnext
    simp only at hnext
    obtain ⟨n1, n2⟩ := hnext
    obtain ⟨ds, b'', e1, e2, e3, e4, e5⟩ := ih (i + 1) (some ((swap i W).map SwapRow.spec)) b' hKb' (fun n =>
      C92_safe n1 (fun v hv => by
        by_cases hst : (W.veh v).state = .ended
        · exact Or.inr ⟨((n2 v hv).2 hst).1, ((n2 v hv).2 hst).2.2⟩
        · exact Or.inl ((n2 v hv).1 hst)) (hs (i + 1)) n)
    refine ⟨⟨W, swap i W⟩ :: ds, b'', ?_, by simp [e2], ?_, ?_, ?_⟩
    · simp only [dayLoop]
      rw [playDay_eq, hW]
      simp only [hb']
      rw [if_neg hnW, e1]
    · intro d hd
      simp only [List.getElem?_cons_zero, Option.some.injEq] at hd
      rw [← hd, hW]
    · intro j d hd
      cases j with
      | zero =>
        simp only [List.getElem?_cons_zero, Option.some.injEq] at hd
        subst hd
        exact ⟨hcW, hsameW, rfl⟩
      | succ j =>
        have := e4 j d (by simpa using hd)
        rw [show i + 1 + j = i + (j + 1) by omega] at this
        exact this
    · intro j d d' hd hd'
      cases j with
      | zero =>
        simp only [List.getElem?_cons_zero, Option.some.injEq] at hd
        subst hd
        have h0 := e3 d' (by simpa using hd')
        have hcN : CReach (startOf (build (i + 1)) (some ((swap i W).map SwapRow.spec))) := n1
        obtain ⟨q1, q2, q3⟩ := run_same hcN (hs (i + 1))
          (startOf (build (i + 1)) (some ((swap i W).map SwapRow.spec))).g.totalSteps
        rw [← h0] at q1 q2 q3
        intro v hv
        have hvN : v < ((build (i + 1)).batchEnforce ((swap i W).map SwapRow.spec)).g.nVehs := by
          rw [(enforce_same _ _).2.1, (hb (i + 1)).same.2.1, ← hsameW.2.1]; exact hv
        refine ⟨fun hst => ?_, fun hst => ?_⟩
        · obtain ⟨p1, p2, p3⟩ := (n2 v hvN).2 hst
          have hlt : v < W.g.nVehs := hv
          refine ⟨?_, ?_, row v, ?_, ?_⟩
          · obtain ⟨⟨w1, w2, w3⟩, l, hl, hd⟩ := p3
            have e : ∀ m ∈ (((build (i + 1)).batchEnforce ((swap i W).map SwapRow.spec)).veh v).route,
                (d'.world.link m).src = (((build (i + 1)).batchEnforce ((swap i W).map SwapRow.spec)).link m).src ∧
                (d'.world.link m).dst = (((build (i + 1)).batchEnforce ((swap i W).map SwapRow.spec)).link m).dst :=
              fun m hm => q1.2.2.1 m (w3 m hm)
            have er : (d'.world.veh v).route = (((build (i + 1)).batchEnforce ((swap i W).map SwapRow.spec)).veh v).route :=
              (q3 v).1
            have eo : (d'.world.veh v).orig = (((build (i + 1)).batchEnforce ((swap i W).map SwapRow.spec)).veh v).orig :=
              (q1.2.2.2 v hvN).1
            have ed : (d'.world.veh v).dest = (((build (i + 1)).batchEnforce ((swap i W).map SwapRow.spec)).veh v).dest :=
              (q1.2.2.2 v hvN).2
            refine ⟨⟨fun m hm => ?_, ?_, fun m hm => ?_⟩, l, by rw [er]; exact hl, ?_⟩
            · rw [er] at hm
              rw [eo, (e m (List.mem_of_head? hm)).1]
              exact w1 m hm
            · rw [er]
              refine List.IsChain.imp_of_mem_imp (fun a b ha hb hab => ?_) w2
              rw [(e a ha).2, (e b hb).1]; exact hab
            · rw [er] at hm
              rw [q1.1]
              exact w3 m hm
            · rw [ed, (e l (List.mem_of_getLast? hl)).2]; exact hd
          · rw [h0]
            refine p1.step (CStep.run _ _ _ (hs (i + 1))) (Or.inl ?_)
            have := (q3 v).1
            rw [h0] at this
            exact this
          · show (swap i W)[v]? = _
            rw [hrow1, List.getElem?_map, List.getElem?_range hlt]; rfl
          · rw [(q3 v).1]; exact p2
        · have := (n2 v hvN).1 hst
          exact ⟨(q3 v).1.trans this.1, (q3 v).2.trans this.2⟩
      | succ j => exact e5 j d d' (by simpa using hd) (by simpa using hd')

theorem dayLoop_fold : ∀ (k i : ℕ) (prev : Option (List (List ℕ))) (b : Best) (ds : List Day) (b' : Best),
    dayLoop build sched swap keep k i prev b = .ok (ds, b') → ds.foldlM (fun b d => keep b d.world) b = .ok b' := by
  intro k
  induction k with
  | zero =>
    intro i prev b ds b' h
    simp only [dayLoop, Except.ok.injEq, Prod.mk.injEq] at h
    obtain ⟨rfl, rfl⟩ := h
    rfl
  | succ k ih =>
    intro i prev b ds b' h
    simp only [dayLoop] at h
    cases h1 : (build i).playDay (sched i) prev with
    | error e => rw [h1] at h; simp at h
    | ok W =>
      rw [h1] at h
      simp only at h
      cases h2 : keep b W with
      | error e => rw [h2] at h; simp at h
      | ok b1 =>
        rw [h2] at h
        simp only at h
        split at h
        · simp at h
        · cases h3 : dayLoop build sched swap keep k (i + 1) (some ((swap i W).map SwapRow.spec)) b1 with
          | error e => rw [h3] at h; simp at h
          | ok r =>
            obtain ⟨ds1, b2⟩ := r
            rw [h3] at h
            simp only [Except.ok.injEq, Prod.mk.injEq] at h
            obtain ⟨rfl, rfl⟩ := h
            have := ih _ _ _ _ _ h3
            rw [List.foldlM_cons]
            simp only [h2]
            exact this

end

theorem allDone_iff (d : Day) : d.world.allDone = true ↔ Complete d := by
  unfold allDone Complete
  simp [List.all_eq_true]

/-- The state of the comparison after some days. -/
def BestState (avg : CWorld → ℚ) (ds : List Day) (b : Best) : Prop :=
  (b.inter = none ∧ b.avg = none ∧ ∀ d ∈ ds, ¬ Complete d) ∨
    ∃ W, b.inter = some W ∧ b.avg = some (avg W) ∧ BestDay avg ds W

theorem BestState.next {avg : CWorld → ℚ} {ds : List Day} {b : Best} (h : BestState avg ds b) (d : Day) :
    ∃ b', keepBest avg b d.world = .ok b' ∧ BestState avg (ds ++ [d]) b' := by
  have old : ∀ {j : ℕ} {x : Day}, (ds ++ [d])[j]? = some x → ds[j]? = some x ∨ (j = ds.length ∧ x = d) := by
    intro j x hj
    rcases lt_or_ge j ds.length with hlt | hge
    · rw [List.getElem?_append_left hlt] at hj; exact Or.inl hj
    · rw [List.getElem?_append_right hge] at hj
      have : j - ds.length = 0 := by
        have := (List.getElem?_eq_some_iff.1 hj).1
        simp at this; omega
      rw [this] at hj
      simp at hj
      exact Or.inr ⟨by omega, hj.symm⟩
  unfold keepBest
  by_cases hd : Complete d
  · rw [if_pos ((allDone_iff d).2 hd)]
    rcases h with ⟨h1, h2, h3⟩ | ⟨W, h1, h2, i, d0, p1, p2, p3, p4⟩
    · rw [h1]
      refine ⟨_, rfl, Or.inr ⟨d.world, rfl, rfl, ds.length, d, by simp, rfl, hd, fun j x hj hx => ?_⟩⟩
      rcases old hj with hj | ⟨rfl, rfl⟩
      · exact absurd hx (h3 x (List.mem_of_getElem? hj))
      · exact ⟨le_refl _, fun h => absurd h (lt_irrefl _)⟩
    · rw [h1, h2]
      simp only
      by_cases hlt : avg d.world < avg W
      · rw [if_pos hlt]
        refine ⟨_, rfl, Or.inr ⟨d.world, rfl, rfl, ds.length, d, by simp, rfl, hd, fun j x hj hx => ?_⟩⟩
        rcases old hj with hj | ⟨rfl, rfl⟩
        · have := (p4 j x hj hx).1
          exact ⟨by linarith, fun _ => by linarith⟩
        · exact ⟨le_refl _, fun h => absurd h (lt_irrefl _)⟩
      · rw [if_neg hlt]
        refine ⟨b, rfl, Or.inr ⟨W, h1, h2, i, d0, ?_, p2, p3, fun j x hj hx => ?_⟩⟩
        · rw [List.getElem?_append_left (List.getElem?_eq_some_iff.1 p1).1]; exact p1
        · rcases old hj with hj | ⟨rfl, rfl⟩
          · exact p4 j x hj hx
          · refine ⟨not_lt.1 hlt, fun h => ?_⟩
            have := (List.getElem?_eq_some_iff.1 p1).1
            omega
  · rw [if_neg (fun h => hd ((allDone_iff d).1 h))]
    refine ⟨b, rfl, ?_⟩
    rcases h with ⟨h1, h2, h3⟩ | ⟨W, h1, h2, i, d0, p1, p2, p3, p4⟩
    · refine Or.inl ⟨h1, h2, fun x hx => ?_⟩
      rcases List.mem_append.1 hx with hx | hx
      · exact h3 x hx
      · obtain rfl : x = d := by simpa using hx
        exact hd
    · refine Or.inr ⟨W, h1, h2, i, d0, ?_, p2, p3, fun j x hj hx => ?_⟩
      · rw [List.getElem?_append_left (List.getElem?_eq_some_iff.1 p1).1]; exact p1
      · rcases old hj with hj | ⟨_, rfl⟩
        · exact p4 j x hj hx
        · exact absurd hx hd

theorem BestState.fold {avg : CWorld → ℚ} (ds : List Day) : ∀ {done : List Day} {b b' : Best}, BestState avg done b →
    ds.foldlM (fun b d => keepBest avg b d.world) b = .ok b' → BestState avg (done ++ ds) b' := by
  induction ds with
  | nil => intro done b b' h e; cases e; rw [List.append_nil]; exact h
  | cons d ds ih =>
    intro done b b' h e
    obtain ⟨b1, e1, h1⟩ := h.next d
    rw [List.foldlM_cons] at e
    simp only [e1] at e
    have := ih h1 e
    rw [List.append_assoc] at this
    exact this

end UX.Cpp

namespace UX
open Cpp Cpp.Spec Cpp.CWorld

section
variable {build : ℕ → CWorld} {sched : ℕ → ℕ → CWorld → Sched} {sets : ℕ → ℕ → Option (List (List ℕ))} {p : ℚ} {num : ℤ}
  {ext : Bool} {u : ℕ → ℕ → ℚ} {perm : ℕ → List ℕ} {avg : CWorld → ℚ} {n : ℕ}
  (hb : ∀ i, GoodBuild (build 0) (build i)) (hsets : SetsOK (build 0) sets) (hs : ∀ i t V, (sched i t V).Valid V) (hn : 0 < n)
include hb hsets hs hn

/-- **C96.** For users: no day throws, there are as many days as iterations, the first starts without given routes, each
hands on its routes to the next, and the solution is the last. -/
theorem C96_due : ∃ ds W, solveDue build sched sets p ext u n = .ok (ds, some W) ∧ ds.length = n ∧
    (∀ d, ds[0]? = some d → d.world = ((build 0).mainLoop (sched 0) (build 0).g.totalSteps).1) ∧
    (∀ (j : ℕ) (d : Day), ds[j]? = some d → CleanReach d.world ∧ d.rows = d.world.swapDue sets p ext (u j)) ∧
    (∀ (j : ℕ) (d d' : Day), ds[j]? = some d → ds[j + 1]? = some d' → HandedOn d d') ∧
    ∃ d, ds.getLast? = some d ∧ d.world = W := by
  have h0 : ∀ m, ((startOf (build 0) none).mainLoop (sched 0) m).2 = none := fun m =>
    C92_safe (hb 0).clean.toReach (fun v hv => Or.inl ((hb 0).new.2 v hv).2.1) (hs 0) m
  obtain ⟨ds, b, e1, e2, e3, e4, e5⟩ := dayLoop_ok (swap := fun i W => W.swapDue sets p ext (u i)) (keep := keepLast) (ext := ext)
    hb hsets hs (fun i W => ⟨_, swapDue_eq W sets p ext (u i), fun v => ⟨_, _, _, rfl⟩⟩) (K := fun _ => True)
    (fun b W _ => ⟨_, rfl, trivial⟩) n 0 none ⟨none, none⟩ trivial h0
  have hne : ds ≠ [] := by rintro rfl; simp at e2; omega
  refine ⟨ds, (ds.getLast hne).world, ?_, e2, e3, fun j d hd => ?_, e5, _, List.getLast?_eq_getLast_of_ne_nil hne, rfl⟩
  · unfold solveDue
    rw [e1]
    simp only [List.getLast?_eq_getLast_of_ne_nil hne]
  · obtain ⟨q1, _, q3⟩ := e4 j d hd
    rw [Nat.zero_add] at q3
    exact ⟨q1, q3⟩

/-- **C96.** For the system, with a new solver: the same, and the solution is the first of the complete days with the least
average travel time; there is none only if no day is complete. -/
theorem C96_dso : ∃ ds sol, solveDso build sched sets p num ext perm u avg none n = .ok (ds, sol) ∧ ds.length = n ∧
    (∀ d, ds[0]? = some d → d.world = ((build 0).mainLoop (sched 0) (build 0).g.totalSteps).1) ∧
    (∀ (j : ℕ) (d : Day), ds[j]? = some d → CleanReach d.world ∧ d.rows = d.world.swapDso sets p num ext (perm j) (u j)) ∧
    (∀ (j : ℕ) (d d' : Day), ds[j]? = some d → ds[j + 1]? = some d' → HandedOn d d') ∧
    ((sol = none ∧ ∀ d ∈ ds, ¬ Complete d) ∨ ∃ W, sol = some W ∧ BestDay avg ds W) := by
  have h0 : ∀ m, ((startOf (build 0) none).mainLoop (sched 0) m).2 = none := fun m =>
    C92_safe (hb 0).clean.toReach (fun v hv => Or.inl ((hb 0).new.2 v hv).2.1) (hs 0) m
  obtain ⟨ds, b, e1, e2, e3, e4, e5⟩ := dayLoop_ok (swap := fun i W => W.swapDso sets p num ext (perm i) (u i))
    (keep := keepBest avg) (ext := ext)
    hb hsets hs (fun i W => ⟨_, rfl, fun v => ⟨_, _, _, rfl⟩⟩) (K := fun b => b.inter.isSome → b.avg.isSome)
    (fun b W hK => by
      unfold keepBest
      split
      · cases hi : b.inter with
        | none => exact ⟨_, rfl, fun _ => rfl⟩
        | some X =>
          cases ha : b.avg with
          | none => rw [hi, ha] at hK; simp at hK
          | some q =>
            simp only
            split
            · exact ⟨_, rfl, fun _ => rfl⟩
            · exact ⟨_, rfl, hK⟩
      · exact ⟨_, rfl, hK⟩) n 0 none ⟨none, none⟩ (by simp) h0
  have hne : ds ≠ [] := by rintro rfl; simp at e2; omega
  refine ⟨ds, b.inter, ?_, e2, e3, fun j d hd => ?_, e5, ?_⟩
  · unfold solveDso
    rw [e1]
    simp only [if_neg hne]
  · obtain ⟨q1, _, q3⟩ := e4 j d hd
    rw [Nat.zero_add] at q3
    exact ⟨q1, q3⟩
  · have := BestState.fold ds (done := []) (Or.inl ⟨rfl, rfl, by simp⟩) (dayLoop_fold n 0 none _ ds b e1)
    rw [List.nil_append] at this
    rcases this with ⟨q1, _, q3⟩ | ⟨W, q1, _, q3⟩
    · exact Or.inl ⟨q1, q3⟩
    · exact Or.inr ⟨W, q1, q3⟩

omit hsets in
/-- **C96.** A second call of `solve` of the same object for the system throws on the first day that is complete. -/
theorem C96_again {X : CWorld}
    (hd : ∀ v, v < (build 0).g.nVehs → (((build 0).mainLoop (sched 0) (build 0).g.totalSteps).1.veh v).travelTime ≠ -1) :
    solveDso build sched sets p num ext perm u avg (some X) n = .error .typeError := by
  have h0 : ∀ m, ((build 0).mainLoop (sched 0) m).2 = none := fun m =>
    C92_safe (hb 0).clean.toReach (fun v hv => Or.inl ((hb 0).new.2 v hv).2.1) (hs 0) m
  obtain ⟨W, hW⟩ : ∃ W, (build 0).mainLoop (sched 0) (build 0).g.totalSteps = (W, none) := ⟨_, Prod.ext rfl (h0 _)⟩
  have hN : W.g.nVehs = (build 0).g.nVehs := by
    have := (run_same (hb 0).clean.toReach (hs 0) (build 0).g.totalSteps).1.2.1
    rw [hW] at this
    exact this
  have hdone : W.allDone = true := (allDone_iff ⟨W, []⟩).2 (fun v hv => by
    have := hd v (hN ▸ hv)
    rw [hW] at this
    exact this)
  obtain ⟨m, rfl⟩ : ∃ m, n = m + 1 := ⟨n - 1, by omega⟩
  have e : (build 0).playDay (sched 0) none = .ok W := by rw [playDay_eq]; simp only [startOf, hW]
  unfold solveDso
  simp only [dayLoop, e, keepBest, hdone, if_true]

end

/-- **C96.** Without iterations both solvers throw. -/
theorem C96_zero (build : ℕ → CWorld) (sched : ℕ → ℕ → CWorld → Sched) (sets : ℕ → ℕ → Option (List (List ℕ))) (p : ℚ)
    (num : ℤ) (ext : Bool) (perm : ℕ → List ℕ) (u : ℕ → ℕ → ℚ) (avg : CWorld → ℚ) (inter : Option CWorld) :
    solveDue build sched sets p ext u 0 = .error .indexError ∧
    solveDso build sched sets p num ext perm u avg inter 0 = .error .indexError := ⟨rfl, rfl⟩

namespace Cpp

theorem cppDay0_clean : CleanReach cppDay0 := by
  refine CleanReach.step ?_ (CleanStep.init _)
  refine CleanReach.step ?_ (CleanStep.vehicle _ 0 0 2 [] (by decide) (by decide))
  refine CleanReach.step ?_ (CleanStep.vehicle _ 0 0 2 [] (by decide) (by decide))
  refine CleanReach.step ?_ (CleanStep.link _ 0 2 cppRowArgs (by decide) (by decide) (by decide) (by decide))
  refine CleanReach.step ?_ (CleanStep.link _ 1 2 cppRowArgs (by decide) (by decide) (by decide) (by decide))
  refine CleanReach.step ?_ (CleanStep.link _ 0 1 cppRowArgs (by decide) (by decide) (by decide) (by decide))
  refine CleanReach.step ?_ (CleanStep.node _ _ [0] 0 (-1) 0 (fun _ => 0) 1 rfl)
  refine CleanReach.step ?_ (CleanStep.node _ _ [0] 0 (-1) 0 (fun _ => 0) 1 rfl)
  refine CleanReach.step ?_ (CleanStep.node _ _ [0] 0 (-1) 0 (fun _ => 0) 1 rfl)
  exact CleanReach.empty id 200 5 1 10 (1/2) 0 true false false false true 1

theorem cppDay_good : GoodBuild cppDay0 cppDay0 :=
  ⟨cppDay0_clean, cppDay_new, ⟨rfl, rfl, fun _ _ => ⟨rfl, rfl⟩, fun _ _ => ⟨rfl, rfl⟩⟩, rfl, rfl, by decide +kernel,
    by decide +kernel⟩

/-- The average travel time of the vehicles of a world. -/
def meanTime (W : CWorld) : ℚ := ((List.range W.g.nVehs).map (fun v => (W.veh v).travelTime)).sum / W.g.nVehs

/-- Only the detour is allowed. -/
def cppDetour : ℕ → ℕ → Option (List (List ℕ)) := fun o d => if o = 0 ∧ d = 2 then some [[0, 1]] else none

theorem cppDetour_sets : SetsOK cppDay0 cppDetour := by
  intro o d rs r h hr
  unfold cppDetour at h
  split at h
  · rename_i e
    obtain ⟨rfl, rfl⟩ := e
    obtain rfl := Option.some.inj h
    obtain rfl : r = [0, 1] := by simpa using hr
    refine ⟨⟨?_, ?_, ?_⟩, 1, rfl, by decide +kernel⟩
    · intro l hl
      obtain rfl : 0 = l := by simpa using hl
      decide +kernel
    · rw [List.isChain_pair]; decide +kernel
    · decide +kernel
  · simp at h

/-- What is looked at of a result: the routes decided, the routes driven, the average of the solution. -/
def gist (r : Except SErr (List Day × Option CWorld)) :
    Option (List (List (List ℕ) × List (List ℕ)) × Option ℚ) :=
  r.toOption.map (fun r => (r.1.map (fun d => (d.rows.map SwapRow.spec,
    (List.range d.world.g.nVehs).map (fun v => (d.world.traveledRoute v).1))), r.2.map meanTime))

end Cpp

/-- On the first day both vehicles drive the direct link, afterwards the detour, which is the only route allowed; the last
day is the solution for users, the first, which is faster, that for the system. -/
theorem C96_case : (∀ i, GoodBuild ((fun _ : ℕ => cppDay0) 0) ((fun _ : ℕ => cppDay0) i)) ∧ SetsOK cppDay0 cppDetour ∧
    (∀ (i t : ℕ) (V : CWorld), ((fun _ _ W => W.seqSched : ℕ → ℕ → CWorld → Sched) i t V).Valid V) ∧
    gist (solveDue (fun _ => cppDay0) (fun _ _ W => W.seqSched) cppDetour 1 true (fun _ _ => 0) 3) =
      some ([([[0, 1], [0, 1]], [[2], [2]]), ([[0, 1], [0, 1]], [[0, 1], [0, 1]]), ([[0, 1], [0, 1]], [[0, 1], [0, 1]])],
        some 30) ∧
    gist (solveDso (fun _ => cppDay0) (fun _ _ W => W.seqSched) cppDetour 1 1 true (fun _ => [0, 1]) (fun _ _ => 0)
        meanTime none 3) =
      some ([([[0, 1], [0, 1]], [[2], [2]]), ([[0, 1], [0, 1]], [[0, 1], [0, 1]]), ([[0, 1], [0, 1]], [[0, 1], [0, 1]])],
        some (35/2)) :=
  ⟨fun _ => cppDay_good, cppDetour_sets, fun _ t V => seqSched_valid t V, by decide +kernel, by decide +kernel⟩

/-- **C96.** The solution for the system can use routes outside the route sets given by the user. -/
theorem C96_sets_false : ¬ ∀ (build : ℕ → CWorld) (sched : ℕ → ℕ → CWorld → Sched)
    (sets : ℕ → ℕ → Option (List (List ℕ))) (avg : CWorld → ℚ) (n : ℕ) (ds : List Day) (W : CWorld),
    (∀ i, GoodBuild (build 0) (build i)) → SetsOK (build 0) sets → (∀ i t V, (sched i t V).Valid V) → 1 < n →
    solveDso build sched sets 1 1 true (fun _ => [0, 1]) (fun _ _ => 0) avg none n = .ok (ds, some W) →
    ∀ v, v < W.g.nVehs → (W.veh v).state = .ended → ∀ rs, sets (W.veh v).orig (W.veh v).dest = some rs →
      (W.traveledRoute v).1 ∈ rs := by
  intro h
  obtain ⟨ds, sol, e, h2, h3, -, -, h6⟩ := C96_dso (p := 1) (num := 1) (ext := true) (perm := fun _ => [0, 1])
    (u := fun _ _ => 0) (avg := meanTime) (n := 3) (sched := fun _ _ W => W.seqSched) (build := fun _ => cppDay0)
    (fun _ => cppDay_good) cppDetour_sets (fun _ t V => seqSched_valid t V) (by decide)
  have hg := C96_case.2.2.2.2
  rw [e] at hg
  simp only [gist, Except.toOption, Option.map_some, Option.some.injEq, Prod.mk.injEq] at hg
  obtain ⟨hg1, hg2⟩ := hg
  rcases h6 with ⟨rfl, -⟩ | ⟨W, rfl, i, d, p1, p2, p3, p4⟩
  · simp at hg2
  · have hk := h _ _ _ _ _ _ _ (fun _ => cppDay_good) cppDetour_sets (fun _ t V => seqSched_valid t V) (by decide) e
    obtain ⟨d0, hd0⟩ : ∃ d0, ds[0]? = some d0 := ⟨ds[0], List.getElem?_eq_getElem (by omega)⟩
    have hw0 := h3 d0 hd0
    have hc0 : Complete d0 := by
      intro v hv
      rw [hw0] at hv ⊢
      revert v
      decide +kernel
    -- the solution is the first day
    have hi : i = 0 := by
      by_contra hne
      have := (p4 0 d0 hd0 hc0).2 (by omega)
      have hm : meanTime W = 35/2 := by simpa using hg2
      rw [hm, hw0] at this
      revert this
      decide +kernel
    subst hi
    obtain rfl : d0 = d := Option.some.inj (hd0.symm.trans p1)
    have hW : W = (cppDay0.mainLoop (fun _ W => W.seqSched) cppDay0.g.totalSteps).1 := p2.symm.trans hw0
    have := hk 0 (by rw [hW]; decide +kernel) (by rw [hW]; decide +kernel) [[0, 1]] (by rw [hW]; decide +kernel)
    rw [hW] at this
    revert this
    decide +kernel

/-- **C96.** So a solver for the system cannot be used twice. -/
theorem C96_twice_false : ¬ ∀ (build : ℕ → CWorld) (sched : ℕ → ℕ → CWorld → Sched)
    (sets : ℕ → ℕ → Option (List (List ℕ))) (avg : CWorld → ℚ) (n : ℕ) (ds : List Day) (sol : Option CWorld),
    (∀ i, GoodBuild (build 0) (build i)) → SetsOK (build 0) sets → (∀ i t V, (sched i t V).Valid V) → 0 < n →
    solveDso build sched sets 1 1 true (fun _ => [0, 1]) (fun _ _ => 0) avg none n = .ok (ds, sol) →
    ∃ r, solveDso build sched sets 1 1 true (fun _ => [0, 1]) (fun _ _ => 0) avg sol n = .ok r := by
  intro h
  obtain ⟨ds, sol, e, -⟩ := C96_dso (p := 1) (num := 1) (ext := true) (perm := fun _ => [0, 1])
    (u := fun _ _ => 0) (avg := meanTime) (n := 3) (sched := fun _ _ W => W.seqSched) (build := fun _ => cppDay0)
    (fun _ => cppDay_good) cppDetour_sets (fun _ t V => seqSched_valid t V) (by decide)
  obtain ⟨r, hr⟩ := h _ _ _ _ _ _ _ (fun _ => cppDay_good) cppDetour_sets (fun _ t V => seqSched_valid t V) (by decide) e
  have hg := C96_case.2.2.2.2
  rw [e] at hg
  simp only [gist, Except.toOption, Option.map_some, Option.some.injEq, Prod.mk.injEq] at hg
  cases sol with
  | none => simp at hg
  | some X =>
    have := C96_again (p := 1) (num := 1) (ext := true) (sets := cppDetour) (perm := fun _ => [0, 1])
      (u := fun _ _ => 0) (avg := meanTime) (n := 3) (sched := fun _ _ W => W.seqSched) (build := fun _ => cppDay0) (X := X)
      (fun _ => cppDay_good) (fun _ t V => seqSched_valid t V) (by decide) (by
        intro v hv
        have hv : v < 2 := hv
        revert v
        decide +kernel)
    rw [hr] at this
    simp at this

end UX
