import Verif.Proofs.CppStatsRun

/-!
# Statistics of the C++ engine: runs, totals and the progress line
-/

namespace UX.Cpp
open CWorld Relation Spec

/-! ## Speed ratios -/

theorem Tally.speed {W W' : CWorld} (t : Tally W W') (hf : W.g.fl = id) (hv : W'.g.nVehs = W.g.nVehs) (m : ℕ) :
    ∃ c : ℚ, speedOn W' m = speedOn W m + c ∧ (W'.link m).aveVr = (W.link m).aveVr + c / (W.link m).vmax := by
  cases t with
  | still h =>
    refine ⟨0, ?_, ?_⟩
    · unfold speedOn; simp only [hv, fun v => (h.veh v).entries m, add_zero]
    · have := congrArg (fun p => p.2.1) (h.link m)
      simp only [CLink.tally] at this
      rw [this]; simp
  | run v l hvn hln e he link node veh =>
    refine ⟨if m = l then e.v else 0, ?_, ?_⟩
    · unfold speedOn; rw [hv]
      refine sum_one hvn (fun w => ?_)
      have := (veh w).2
      by_cases hw : w = v
      · subst hw
        rw [if_pos rfl] at this
        rw [if_pos rfl, snoc_entries _ _ e this, he]
        by_cases hm : m = l
        · subst hm; simp
        · rw [if_neg (fun h => hm (Option.some.inj h).symm), if_neg hm]; simp
      · rw [if_neg hw] at this
        rw [if_neg hw, add_zero]
        unfold entriesOn; rw [this]
    · have h1 := congrArg (fun p => p.2.1) (link m)
      by_cases hm : m = l
      · subst hm; simp only [CLink.tally, if_true, hf, id] at h1 ⊢; exact h1
      · simp only [CLink.tally, if_neg hm] at h1 ⊢; rw [h1]; simp
  | wait v hvn link node e he veh =>
    refine ⟨0, ?_, ?_⟩
    · unfold speedOn; rw [hv, add_zero]
      refine Finset.sum_congr rfl (fun w _ => ?_)
      have := (veh w).2
      by_cases hw : w = v
      · subst hw
        rw [if_pos rfl] at this
        rw [snoc_entries _ _ e this, he]; simp
      · rw [if_neg hw] at this
        unfold entriesOn; rw [this]
    · have := congrArg (fun p => p.2.1) (link m)
      simp only [CLink.tally] at this
      rw [this]; simp

theorem Evs.ratio {W W' : CWorld} (e : Evs W W') (hf : W.g.fl = id) (hm : W.g.logMode = true) (l : ℕ) :
    (W'.link l).aveVr = (W.link l).aveVr + (speedOn W' l - speedOn W l) / (W.link l).vmax := by
  have := e.lift (P := fun X => X.g.fl = id ∧ X.g.logMode = true ∧ (X.link l).vmax = (W.link l).vmax ∧
    (X.link l).aveVr = (W.link l).aveVr + (speedOn X l - speedOn W l) / (W.link l).vmax) ?_ ⟨hf, hm, rfl, by simp⟩
  · exact this.2.2.2
  · rintro X X' e ⟨h1, h2, h3, h4⟩
    refine ⟨by rw [CGlob.fix_fl e.fix]; exact h1, by rw [CGlob.fix_logMode e.fix]; exact h2, ?_, ?_⟩
    · exact (show (X'.link l).par.vmax = (X.link l).par.vmax by rw [e.samePar.link l]).trans h3
    · obtain ⟨c, a, b⟩ := (e.tally h2).speed h1 (CGlob.fix_nVehs e.fix) l
      rw [b, h4, a, h3]; ring

/-! ## Totals -/

theorem sumFrom_id (f : ℕ → ℚ) (k : ℕ) (s : ℚ) : sumFrom id f k s = s + ∑ i ∈ Finset.range k, f i := by
  unfold sumFrom
  induction k with
  | zero => simp
  | succ k ih => rw [List.range_succ, List.foldl_append, ih, Finset.sum_range_succ]; simp [add_assoc]

/-- Entries on the links below `k` are all entries on the road. -/
theorem entries_sum {M : Type} [AddCommMonoid M] (f : CLog → M) (k : ℕ) (xs : List CLog)
    (h : ∀ e ∈ xs, ∀ l, e.link = some l → l < k) :
    ∑ l ∈ Finset.range k, ((xs.filter (fun e => e.link = some l)).map f).sum =
      ((xs.filter (fun e => e.link.isSome)).map f).sum := by
  induction xs with
  | nil => simp
  | cons e t ih =>
    have ih := ih (fun e' he' => h e' (by simp [he']))
    cases hl : e.link with
    | none => simp only [List.filter_cons, hl]; simpa using ih
    | some a =>
      have ha := h e (by simp) a hl
      have : ∀ l, (((e :: t).filter (fun e => e.link = some l)).map f).sum =
          (if l = a then f e else 0) + ((t.filter (fun e => e.link = some l)).map f).sum := fun l => by
        by_cases hla : l = a
        · subst hla; simp [List.filter_cons, hl]
        · have : ¬ a = l := fun h => hla h.symm
          simp [List.filter_cons, hl, hla, this]
      rw [Finset.sum_congr rfl (fun l _ => this l), Finset.sum_add_distrib, ih, Finset.sum_ite_eq',
        if_pos (Finset.mem_range.2 ha)]
      simp [List.filter_cons, hl]

theorem Counted.speed {W : CWorld} (c : Counted W) (hf : W.g.fl = id) :
    W.aveVSum = ∑ v ∈ Finset.range W.g.nVehs, speedOf W v := by
  unfold aveVSum
  rw [hf, sumFrom_id, zero_add, Finset.sum_congr rfl (fun l hl => c.aveV l (Finset.mem_range.1 hl))]
  unfold speedOn
  rw [Finset.sum_comm]
  exact Finset.sum_congr rfl (fun v hv => entries_sum CLog.v _ _ (c.links v (Finset.mem_range.1 hv)))

theorem filter_index {α : Type} (xs : List α) (p : α → Bool) (q : ℕ → Bool)
    (h : ∀ i e, xs[i]? = some e → (p e = true ↔ q i = true)) :
    (xs.filter p).length = ((List.range xs.length).filter q).length := by
  induction xs generalizing q with
  | nil => rfl
  | cons a t ih =>
    have ih := ih (fun i => q (i + 1)) (fun i e hi => h (i + 1) e (by simpa using hi))
    have h0 := h 0 a rfl
    rw [List.length_cons, List.range_succ_eq_map, List.filter_cons, List.filter_cons, List.filter_map]
    by_cases hp : p a = true
    · rw [if_pos hp, if_pos (h0.1 hp), List.length_cons, List.length_cons, List.length_map, ih]; rfl
    · rw [if_neg hp, if_neg (fun hq => hp (h0.2 hq)), List.length_map, ih]; rfl

theorem life_waits (f w r : ℕ) : ((life f w r).filter (fun p => p.2 = .wait)).length = w := by
  have h1 : (List.range w).filter ((fun p : ℕ × VState => decide (p.2 = .wait)) ∘ fun i => (f + 1 + i, VState.wait)) =
      List.range w := List.filter_eq_self.2 (fun _ _ => rfl)
  have h2 : (List.range r).filter ((fun p : ℕ × VState => decide (p.2 = .wait)) ∘ fun i => (f + 1 + w + i, VState.run)) =
      [] := List.filter_eq_nil_iff.2 (fun _ _ => by simp)
  unfold life
  rw [List.filter_cons, if_neg (by simp), List.filter_append, List.filter_map, List.filter_map, h1, h2]
  simp

theorem LogAt.waits {c : ℕ → ℚ} {b : Bool} {n : ℕ} {V : CVeh} (h : LogAt c b n V) :
    (V.eager.filter (fun p => p.2 = .wait)).length = V.logWait := by
  unfold LogAt at h
  split at h
  · obtain ⟨_, h1, h2, _⟩ := h; rw [h1, h2]; rfl
  · obtain ⟨f, h1, _⟩ := h; rw [h1, life_waits]
  · obtain ⟨f, r, h1, _⟩ := h; rw [h1, life_waits]
  · rename_i hw _
    obtain ⟨f, r, t, h1, _⟩ := h
    rw [h1, List.filter_append, List.length_append, life_waits]
    have : ¬ V.state = .wait := fun h => hw h
    simp [this]

theorem timesIn_wait {W : CWorld} {v n : ℕ} (h : LogAt (clockAt W) true n (W.veh v)) :
    timesIn W v .wait = (W.veh v).logWait := by
  have := h.reads.1
  unfold Reads at this
  unfold timesIn
  rw [this, List.filter_map, List.length_map]
  exact h.waits

theorem timesIn_run {W : CWorld} {v n : ℕ} (h : LogAt (clockAt W) true n (W.veh v)) :
    timesIn W v .run = ((W.veh v).log.filter (fun e => e.link.isSome)).length := by
  have := h.reads.2
  unfold timesIn readLog
  rw [List.filter_map, List.length_map]
  refine (filter_index _ _ _ (fun i e he => ?_)).symm
  rw [Option.isSome_iff_exists]
  simpa using this i e he

theorem Counted.samples {W : CWorld} (c : Counted W) (hf : W.g.fl = id) (ho : ∀ v < W.g.nVehs, (W.veh v).orig < W.g.nNodes)
    {n : ℕ} (h : ∀ v < W.g.nVehs, LogAt (clockAt W) true n (W.veh v)) :
    W.sampleCount = ((∑ v ∈ Finset.range W.g.nVehs, (timesIn W v .run + timesIn W v .wait) : ℕ) : ℚ) := by
  unfold sampleCount
  rw [hf, sumFrom_id, sumFrom_id, zero_add, Finset.sum_congr rfl (fun l hl => c.stat l (Finset.mem_range.1 hl)),
    Finset.sum_congr rfl (fun n hn => c.wait n (Finset.mem_range.1 hn)), ← Nat.cast_sum, ← Nat.cast_sum, ← Nat.cast_add,
    Finset.sum_add_distrib]
  congr 1
  congr 1
  · unfold countOn
    rw [Finset.sum_comm]
    refine Finset.sum_congr rfl (fun v hv => ?_)
    rw [timesIn_run (h v (Finset.mem_range.1 hv))]
    have := entries_sum (fun _ => 1) W.g.nLinks (W.veh v).log (c.links v (Finset.mem_range.1 hv))
    simpa [entriesOn] using this
  · unfold waits
    rw [Finset.sum_comm]
    refine Finset.sum_congr rfl (fun v hv => ?_)
    rw [timesIn_wait (h v (Finset.mem_range.1 hv)), Finset.sum_ite_eq,
      if_pos (Finset.mem_range.2 (ho v (Finset.mem_range.1 hv)))]

/-! ## The progress line -/

theorem onRoad_eq {W : CWorld} (i : Inv W none none) :
    onRoad W = (Finset.range W.g.nLinks).biUnion (fun l => (W.link l).vehs.toFinset) := by
  ext v
  simp only [onRoad, Finset.mem_filter, Finset.mem_range, Finset.mem_biUnion, List.mem_toFinset]
  constructor
  · rintro ⟨hv, hs⟩
    rcases i.run v hv hs with h | ⟨l, hl⟩
    · simp at h
    · exact ⟨l, (i.mem l v hl).2.2.1, hl⟩
  · rintro ⟨l, _, hl⟩
    obtain ⟨_, hs, _, hv, _⟩ := i.mem l v hl
    exact ⟨hv, hs⟩

theorem vehs_disjoint {W : CWorld} (i : Inv W none none) (s : Set ℕ) :
    s.PairwiseDisjoint (fun l => (W.link l).vehs.toFinset) := by
  intro a _ b _ hab
  rw [Function.onFun, Finset.disjoint_left]
  intro v ha hb
  rw [List.mem_toFinset] at ha hb
  have h1 := (i.mem a v ha).1
  have h2 := (i.mem b v hb).1
  rw [h1] at h2
  exact hab (Option.some.inj h2)

theorem platoons {W : CWorld} (i : Inv W none none) (hf : W.g.fl = id) : W.platoonCount = ((onRoad W).card : ℚ) := by
  unfold platoonCount
  rw [hf, sumFrom_id, zero_add, onRoad_eq i, Finset.card_biUnion (fun a ha b hb hab => vehs_disjoint i Set.univ trivial trivial hab),
    Nat.cast_sum]
  exact Finset.sum_congr rfl (fun l _ => by rw [List.toFinset_card_of_nodup (i.nd l)])

theorem fold_sum (f : ℕ → ℚ) (xs : List ℕ) (s : ℚ) : xs.foldl (fun s v => s + f v) s = s + (xs.map f).sum := by
  induction xs generalizing s with
  | nil => simp
  | cons a t ih => rw [List.foldl_cons, ih]; simp [add_assoc]

theorem speeds {W : CWorld} (i : Inv W none none) (hf : W.g.fl = id) : W.speedSum = ∑ v ∈ onRoad W, (W.veh v).v := by
  have h1 : W.speedSum = sumFrom id (fun l => ((W.link l).vehs.map (fun v => (W.veh v).v)).sum) W.g.nLinks 0 := by
    unfold speedSum sumFrom
    rw [hf]
    simp only [id]
    congr 1
    funext s l
    exact fold_sum _ _ _
  rw [h1, sumFrom_id, zero_add, onRoad_eq i, Finset.sum_biUnion (vehs_disjoint i _)]
  exact Finset.sum_congr rfl (fun l _ => (List.sum_toFinset _ (i.nd l)).symm)

end UX.Cpp
