import Verif.Spec.Solvers
import Verif.Proofs.Random
import Mathlib.Data.List.Sort
import Mathlib.Data.List.Forall2

/-! Proofs about route swapping and the genetic algorithm. -/

namespace UX

section Swap
variable {ρ : Type}

/-- The loop over the alternatives. -/
theorem swapFold_spec (flag : Bool) (alts : List (ρ × ℚ)) (a : SwapAcc ρ) :
    let b := alts.foldl (swapStep flag) a
    (b.potential = true ↔ a.potential = true ∨ ∃ p ∈ alts, p.2 < a.cost) ∧
    (flag = false → b.changed = a.changed ∧ b.cost = a.cost) ∧
    (flag = true → b.cost ≤ a.cost ∧ (∀ p ∈ alts, b.cost ≤ p.2) ∧
      ((b.changed = a.changed ∧ b.cost = a.cost) ∨
        ∃ r, b.changed = some r ∧ b.cost < a.cost ∧ (r, b.cost) ∈ alts)) := by
  induction alts generalizing a with
  | nil => simp
  | cons p t ih =>
    have h := ih (swapStep flag a p)
    simp only [List.foldl_cons]
    obtain ⟨h1, h2, h3⟩ := h
    cases flag with
    | false =>
      refine ⟨?_, ?_, by simp⟩
      · rw [h1]
        unfold swapStep
        by_cases hp : p.2 < a.cost
        · simp [hp]
        · simp [hp]
      · intro _
        obtain ⟨e1, e2⟩ := h2 rfl
        rw [e1, e2]
        unfold swapStep
        split <;> simp
    | true =>
      obtain ⟨g1, g2, g3⟩ := h3 rfl
      by_cases hp : p.2 < a.cost
      · have hs : swapStep true a p = { changed := some p.1, gap := a.cost - p.2, cost := p.2
                                        potential := true } := by simp [swapStep, hp]
        rw [hs] at h1 g1 g2 g3 ⊢
        refine ⟨by rw [h1]; simp [hp], by simp, fun _ => ⟨g1.trans hp.le, ?_, ?_⟩⟩
        · intro q hq
          rcases List.mem_cons.mp hq with rfl | hq
          · exact g1
          · exact g2 q hq
        · right
          rcases g3 with ⟨e1, e2⟩ | ⟨r, e1, e2, e3⟩
          · exact ⟨p.1, e1, by rw [e2]; exact hp, by rw [e2]; simp⟩
          · exact ⟨r, e1, e2.trans hp, List.mem_cons_of_mem _ e3⟩
      · have hs : swapStep true a p = a := by simp [swapStep, hp]
        rw [hs] at h1 g1 g2 g3 ⊢
        refine ⟨by rw [h1]; simp [hp], by simp, fun _ => ⟨g1, ?_, ?_⟩⟩
        · intro q hq
          rcases List.mem_cons.mp hq with rfl | hq
          · exact g1.trans (not_lt.mp hp)
          · exact g2 q hq
        · rcases g3 with e | ⟨r, e1, e2, e3⟩
          · exact Or.inl e
          · exact Or.inr ⟨r, e1, e2, List.mem_cons_of_mem _ e3⟩

theorem swapLoop_potential (flag : Bool) (v : DayVeh ρ) :
    (swapLoop flag v).potential = true ↔ v.improvable := by
  have := (swapFold_spec flag v.alts { changed := none, gap := 0, cost := v.cost, potential := false }).1
  simpa [swapLoop, DayVeh.improvable] using this

theorem swapLoop_changed (flag : Bool) (v : DayVeh ρ) :
    (swapLoop flag v).changed.isSome = true ↔ flag = true ∧ v.improvable := by
  obtain ⟨-, h2, h3⟩ :=
    swapFold_spec flag v.alts { changed := none, gap := 0, cost := v.cost, potential := false }
  unfold swapLoop DayVeh.improvable
  cases flag with
  | false => simp [h2 rfl]
  | true =>
    obtain ⟨g1, g2, g3⟩ := h3 rfl
    rcases g3 with ⟨e1, e2⟩ | ⟨r, e1, e2, e3⟩
    · rw [e1]
      simp only [Option.isSome_none, Bool.false_eq_true, false_iff, true_and, not_exists, not_and,
        not_lt]
      intro p hp
      exact e2.symm.le.trans (g2 p hp)
    · rw [e1]
      simp only [Option.isSome_some, true_iff, true_and]
      exact ⟨_, e3, e2⟩

theorem swapLoop_spec (flag : Bool) (v : DayVeh ρ) :
    Swapped flag v ((swapLoop flag v).changed.getD v.route) := by
  have hc := swapLoop_changed flag v
  obtain ⟨-, h2, h3⟩ :=
    swapFold_spec flag v.alts { changed := none, gap := 0, cost := v.cost, potential := false }
  constructor
  · intro h
    have : (swapLoop flag v).changed = none := by
      rw [← Option.not_isSome_iff_eq_none, hc]
      rintro ⟨hf, p, hp, hlt⟩
      rcases h with h | h
      · rw [hf] at h; cases h
      · exact absurd (h p hp) (not_le.mpr hlt)
    rw [this]; rfl
  · rintro rfl hi
    have hs := hc.mpr ⟨rfl, hi⟩
    obtain ⟨g1, g2, g3⟩ := h3 rfl
    rcases g3 with ⟨e1, e2⟩ | ⟨r, e1, e2, e3⟩
    · unfold swapLoop at hs; rw [e1] at hs; cases hs
    · have : (swapLoop true v).changed = some r := e1
      rw [this]
      exact ⟨_, e3, e2, g2⟩

end Swap

section Keep

instance (A : Analyzer) : Decidable A.allDone := by unfold Analyzer.allDone; infer_instance

theorem d2dKeep_eq (prev : Option (World × Analyzer)) (D : World × Analyzer) :
    d2dKeep prev D = if D.2.allDone then
        (match prev with
          | none => some D
          | some B => if D.2.averageTravelTime < B.2.averageTravelTime then some D else some B)
        else prev := by
  have hdone : ((D.2.tripAll : ℤ) - D.2.tripCompleted = 0) ↔ D.2.allDone := by
    unfold Analyzer.allDone; omega
  unfold d2dKeep
  by_cases h : D.2.allDone
  · rw [if_pos h, if_pos (hdone.mpr h)]; cases prev <;> rfl
  · rw [if_neg h, if_neg (fun h' => h (hdone.mp h'))]

theorem d2dKeep_fold (days : List (World × Analyzer)) (prev : Option (World × Analyzer)) :
    (d2dSolve prev days = none ↔ prev = none ∧ ∀ D ∈ days, ¬ D.2.allDone) ∧
    (∀ B, d2dSolve prev days = some B →
      (prev = some B ∨ (B ∈ days ∧ B.2.allDone)) ∧
      (∀ P, prev = some P → B.2.averageTravelTime ≤ P.2.averageTravelTime) ∧
      ∀ D ∈ days, D.2.allDone → B.2.averageTravelTime ≤ D.2.averageTravelTime) := by
  induction days generalizing prev with
  | nil =>
    constructor
    · simp [d2dSolve]
    · intro B hB
      have : prev = some B := hB
      refine ⟨Or.inl this, ?_, by simp⟩
      intro P hP; rw [this] at hP; cases hP; exact le_rfl
  | cons D t ih =>
    obtain ⟨i1, i2⟩ := ih (d2dKeep prev D)
    have hfold : d2dSolve prev (D :: t) = d2dSolve (d2dKeep prev D) t := rfl
    rw [hfold]
    have hk := d2dKeep_eq prev D
    constructor
    · rw [i1]
      by_cases h : D.2.allDone
      · constructor
        · rintro ⟨h1, -⟩
          rw [hk, if_pos h] at h1
          cases prev with
          | none => cases h1
          | some P => dsimp only at h1; split at h1 <;> cases h1
        · rintro ⟨-, h2⟩
          exact absurd h (h2 D (List.mem_cons_self ..))
      · rw [hk, if_neg h]
        constructor
        · rintro ⟨h1, h2⟩
          refine ⟨h1, fun E hE => ?_⟩
          rcases List.mem_cons.mp hE with rfl | hE
          · exact h
          · exact h2 E hE
        · rintro ⟨h1, h2⟩
          exact ⟨h1, fun E hE => h2 E (List.mem_cons_of_mem _ hE)⟩
    · intro B hB
      obtain ⟨j1, j2, j3⟩ := i2 B hB
      by_cases h : D.2.allDone
      · rw [hk, if_pos h] at j1 j2
        cases prev with
        | none =>
          refine ⟨Or.inr ?_, by simp, ?_⟩
          · rcases j1 with j1 | j1
            · cases j1; exact ⟨List.mem_cons_self .., h⟩
            · exact ⟨List.mem_cons_of_mem _ j1.1, j1.2⟩
          · intro E hE hd
            rcases List.mem_cons.mp hE with rfl | hE
            · exact j2 _ rfl
            · exact j3 E hE hd
        | some P =>
          dsimp only at j1 j2
          split at j1
          · next hlt =>
            rw [if_pos hlt] at j2
            refine ⟨Or.inr ?_, ?_, ?_⟩
            · rcases j1 with j1 | j1
              · cases j1; exact ⟨List.mem_cons_self .., h⟩
              · exact ⟨List.mem_cons_of_mem _ j1.1, j1.2⟩
            · intro Q hQ; cases hQ; exact (j2 _ rfl).trans hlt.le
            · intro E hE hd
              rcases List.mem_cons.mp hE with rfl | hE
              · exact j2 _ rfl
              · exact j3 E hE hd
          · next hlt =>
            rw [if_neg hlt] at j2
            refine ⟨?_, ?_, ?_⟩
            · rcases j1 with j1 | j1
              · exact Or.inl j1
              · exact Or.inr ⟨List.mem_cons_of_mem _ j1.1, j1.2⟩
            · intro Q hQ; cases hQ; exact j2 _ rfl
            · intro E hE hd
              rcases List.mem_cons.mp hE with rfl | hE
              · exact (j2 _ rfl).trans (not_lt.mp hlt)
              · exact j3 E hE hd
      · rw [hk, if_neg h] at j1 j2
        refine ⟨?_, j2, ?_⟩
        · rcases j1 with j1 | j1
          · exact Or.inl j1
          · exact Or.inr ⟨List.mem_cons_of_mem _ j1.1, j1.2⟩
        · intro E hE hd
          rcases List.mem_cons.mp hE with rfl | hE
          · exact absurd hd h
          · exact j3 E hE hd

end Keep

namespace GA

theorem fittest_mem {f : Genome → ℚ} {gs : List Genome} {g : Genome}
    (h : Outcome (fittest f gs) g) : g ∈ gs ∧ ∀ x ∈ gs, f x ≤ f g := by
  cases gs with
  | nil => exact (Outcome.fail h).elim
  | cons a t =>
    have := Outcome.pure h
    subst this
    clear h
    induction t generalizing a with
    | nil => simp
    | cons b t ih =>
      simp only [List.foldl_cons]
      split
      · next hlt =>
        obtain ⟨h1, h2⟩ := ih b
        refine ⟨List.mem_cons_of_mem _ h1, fun x hx => ?_⟩
        rcases List.mem_cons.mp hx with rfl | hx
        · exact hlt.le.trans (h2 b (List.mem_cons_self ..))
        · exact h2 x hx
      · next hlt =>
        obtain ⟨h1, h2⟩ := ih a
        refine ⟨?_, fun x hx => ?_⟩
        · rcases List.mem_cons.mp h1 with h1 | h1
          · rw [h1]; exact List.mem_cons_self ..
          · exact List.mem_cons_of_mem _ (List.mem_cons_of_mem _ h1)
        · rcases List.mem_cons.mp hx with rfl | hx
          · exact h2 _ (List.mem_cons_self ..)
          · rcases List.mem_cons.mp hx with rfl | hx
            · exact (not_lt.mp hlt).trans (h2 a (List.mem_cons_self ..))
            · exact h2 x (List.mem_cons_of_mem _ hx)

theorem tournament_spec {c : GaCfg} {pop sel : List Genome} (h : Outcome (tournament c pop) sel) :
    sel.length = pop.length ∧ ∀ g ∈ sel, ∃ three : List Genome, three.length = 3 ∧
      three.Subperm pop ∧ g ∈ three ∧ ∀ x ∈ three, c.fitness x ≤ c.fitness g := by
  have h2 := Outcome.collect pop h
  refine ⟨h2.length_eq.symm, fun g hg => ?_⟩
  obtain ⟨i, hi, rfl⟩ := List.getElem_of_mem hg
  have h3 := h2.get (i := i) (by rw [h2.length_eq]; exact hi) hi
  simp only [List.get_eq_getElem] at h3
  obtain ⟨as, ha, h3⟩ := Outcome.bind h3
  obtain ⟨l1, l2⟩ := Outcome.sample ha
  obtain ⟨m1, m2⟩ := fittest_mem h3
  exact ⟨as, l1, l2, m1, m2⟩

theorem slice_getElem? {α : Type} (xs : List α) (a b i : ℕ) :
    (slice xs a b)[i]? = if i < b - a then xs[a + i]? else none := by
  unfold slice
  rw [List.getElem?_take]
  split
  · rw [List.getElem?_drop]
  · rfl

theorem slice_length {α : Type} {xs : List α} {a b : ℕ} (hb : b ≤ xs.length) :
    (slice xs a b).length = b - a := by
  unfold slice; rw [List.length_take, List.length_drop]; omega

theorem crossLoop_spec (p1 p2 : Genome) (hl : p1.length = p2.length) :
    ∀ (pts : List ℕ) (odd : Bool) (last : ℕ), last ≤ p1.length →
    (last :: (pts ++ [p1.length])).Pairwise (· ≤ ·) →
    let r := crossLoop p1 p2 odd last (pts ++ [p1.length])
    r.1.length = p1.length - last ∧ r.2.length = p1.length - last ∧
    ∀ i : ℕ, (r.1[i]? = p1[last + i]? ∧ r.2[i]? = p2[last + i]?) ∨
      (r.1[i]? = p2[last + i]? ∧ r.2[i]? = p1[last + i]?) := by
  intro pts
  induction pts with
  | nil =>
    intro odd last hlast _
    have s1 := slice_getElem? p1 last p1.length
    have s2 := slice_getElem? p2 last p1.length
    have l1 := slice_length (a := last) (le_refl p1.length)
    have l2 := slice_length (a := last) (xs := p2) (b := p1.length) hl.le
    have n1 : ∀ i, (slice p1 last p1.length)[i]? = p1[last + i]? := fun i => by
      rw [s1]; split
      · rfl
      · rw [List.getElem?_eq_none]; omega
    have n2 : ∀ i, (slice p2 last p1.length)[i]? = p2[last + i]? := fun i => by
      rw [s2]; split
      · rfl
      · rw [List.getElem?_eq_none]; omega
    cases odd
    · simp only [List.nil_append, crossLoop, Bool.false_eq_true, if_false, List.append_nil]
      exact ⟨l1, l2, fun i => Or.inl ⟨n1 i, n2 i⟩⟩
    · simp only [List.nil_append, crossLoop, if_true, List.append_nil]
      exact ⟨l2, l1, fun i => Or.inr ⟨n2 i, n1 i⟩⟩
  | cons pt pts ih =>
    intro odd last hlast hs
    simp only [List.cons_append] at hs ⊢
    have hs' := hs
    rw [List.pairwise_cons] at hs'
    obtain ⟨hle, hs2⟩ := hs'
    have hpt : pt ≤ p1.length := by
      rw [List.pairwise_cons] at hs2
      exact hs2.1 _ (by simp)
    have hlp : last ≤ pt := hle pt (List.mem_cons_self ..)
    obtain ⟨r1, r2, r3⟩ := ih (!odd) pt hpt hs2
    set R := crossLoop p1 p2 (!odd) pt (pts ++ [p1.length]) with hR
    have key : ∀ (a b : Genome), a.length = p1.length → b.length = p1.length - pt →
        (slice a last pt ++ b).length = p1.length - last := by
      intro a b ha hb
      rw [List.length_append, slice_length (by omega), hb]; omega
    have get1 : ∀ (a b : Genome) (i : ℕ), a.length = p1.length → i < pt - last →
        (slice a last pt ++ b)[i]? = a[last + i]? := by
      intro a b i ha hi
      rw [List.getElem?_append_left (by rw [slice_length (by omega)]; exact hi), slice_getElem?,
        if_pos hi]
    have get2 : ∀ (a b : Genome) (i : ℕ), a.length = p1.length → pt - last ≤ i →
        (slice a last pt ++ b)[i]? = b[i - (pt - last)]? := by
      intro a b i ha hi
      rw [List.getElem?_append_right (by rw [slice_length (by omega)]; exact hi),
        slice_length (by omega)]
    cases odd
    · simp only [crossLoop, Bool.false_eq_true, if_false]
      change (slice p1 last pt ++ R.1).length = _ ∧ (slice p2 last pt ++ R.2).length = _ ∧ _
      refine ⟨key p1 R.1 rfl r1, key p2 R.2 hl.symm r2, fun i => ?_⟩
      by_cases hi : i < pt - last
      · exact Or.inl ⟨get1 p1 R.1 i rfl hi, get1 p2 R.2 i hl.symm hi⟩
      · push Not at hi
        have := r3 (i - (pt - last))
        rw [show pt + (i - (pt - last)) = last + i by omega] at this
        rw [← get2 p1 R.1 i rfl hi, ← get2 p2 R.2 i hl.symm hi] at this
        exact this
    · simp only [crossLoop, if_true]
      change (slice p2 last pt ++ R.1).length = _ ∧ (slice p1 last pt ++ R.2).length = _ ∧ _
      refine ⟨key p2 R.1 hl.symm r1, key p1 R.2 rfl r2, fun i => ?_⟩
      by_cases hi : i < pt - last
      · exact Or.inr ⟨get1 p2 R.1 i hl.symm hi, get1 p1 R.2 i rfl hi⟩
      · push Not at hi
        have := r3 (i - (pt - last))
        rw [show pt + (i - (pt - last)) = last + i by omega] at this
        rw [← get2 p2 R.1 i hl.symm hi, ← get2 p1 R.2 i rfl hi] at this
        exact this

theorem crossover_spec {c : GaCfg} {p1 p2 : Genome} {ch : Genome × Genome}
    (h : Outcome (crossover c p1 p2) ch) (hl : p1.length = p2.length) :
    ch.1.length = p1.length ∧ ch.2.length = p1.length ∧
    ∀ i : ℕ, (ch.1[i]? = p1[i]? ∧ ch.2[i]? = p2[i]?) ∨ (ch.1[i]? = p2[i]? ∧ ch.2[i]? = p1[i]?) := by
  unfold crossover at h
  split at h
  · exact (Outcome.fail h).elim
  · obtain ⟨pts, hp, h⟩ := Outcome.bind h
    have := Outcome.pure h
    subst this
    obtain ⟨-, hsub⟩ := Outcome.sample hp
    have hperm := List.perm_insertionSort (· ≤ ·) pts
    have hmem : ∀ x ∈ pts.insertionSort (· ≤ ·), x < p1.length := by
      intro x hx
      have := hsub.subset (hperm.subset hx)
      exact List.mem_range.mp (List.drop_subset _ _ this)
    have hsort : (pts.insertionSort (· ≤ ·)).Pairwise (· ≤ ·) := List.pairwise_insertionSort _ pts
    have := crossLoop_spec p1 p2 hl (pts.insertionSort (· ≤ ·)) false 0 (Nat.zero_le _)
      (by
        rw [List.pairwise_cons]
        refine ⟨fun _ _ => Nat.zero_le _, ?_⟩
        rw [List.pairwise_append]
        refine ⟨hsort, List.pairwise_singleton _ _, fun a ha b hb => ?_⟩
        rw [List.mem_singleton] at hb
        subst hb
        exact (hmem a ha).le)
    simpa only [Nat.sub_zero, Nat.zero_add] using this

theorem feasible_cons {m x : ℕ} {ms : List ℕ} {g : Genome} :
    Feasible (m :: ms) (x :: g) ↔ x < m ∧ Feasible ms g := by
  constructor
  · rintro ⟨h1, h2⟩
    refine ⟨h2 0 x m rfl rfl, by simpa using h1, fun i y n hy hn => ?_⟩
    exact h2 (i + 1) y n (by simpa using hy) (by simpa using hn)
  · rintro ⟨h1, h2, h3⟩
    refine ⟨by simp [h2], fun i y n hy hn => ?_⟩
    cases i with
    | zero => simp only [List.getElem?_cons_zero, Option.some.injEq] at hy hn; omega
    | succ i => exact h3 i y n (by simpa using hy) (by simpa using hn)

/-- A mutated genome keeps its length, and each gene is the old one or a valid new one. -/
theorem mutate_spec (rate : ℚ) : ∀ (g : Genome) (maxs : List ℕ) {g' : Genome},
    Outcome (mutate rate g maxs) g' → g'.length = g.length ∧
      ∀ (i x : ℕ), g'[i]? = some x → g[i]? = some x ∨ ∃ m, maxs[i]? = some m ∧ x < m
  | [], maxs, g', h => by
    cases Outcome.pure h; exact ⟨rfl, by simp⟩
  | g :: gs, maxs, g', h => by
    unfold mutate at h
    obtain ⟨q, -, h⟩ := Outcome.bind h
    split at h
    · cases maxs with
      | nil => exact (Outcome.fail h).elim
      | cons m ms =>
        cases m with
        | zero => exact (Outcome.fail h).elim
        | succ m =>
          obtain ⟨x, hx, h⟩ := Outcome.bind h
          obtain ⟨r, hr, h⟩ := Outcome.bind h
          have := Outcome.pure h
          subst this
          obtain ⟨l, k⟩ := mutate_spec rate gs ms hr
          have hx := Outcome.randint hx
          refine ⟨by simp [l], fun i y hy => ?_⟩
          cases i with
          | zero =>
            simp only [List.getElem?_cons_zero, Option.some.injEq] at hy
            exact Or.inr ⟨m + 1, rfl, by omega⟩
          | succ i => simpa using k i y (by simpa using hy)
    · obtain ⟨r, hr, h⟩ := Outcome.bind h
      have := Outcome.pure h
      subst this
      obtain ⟨l, k⟩ := mutate_spec rate gs maxs.tail hr
      refine ⟨by simp [l], fun i y hy => ?_⟩
      cases i with
      | zero => exact Or.inl (by simpa using hy)
      | succ i =>
        have := k i y (by simpa using hy)
        simpa [List.getElem?_tail] using this

theorem mutate_feasible {rate : ℚ} {g g' : Genome} {maxs : List ℕ} (hg : Feasible maxs g)
    (h : Outcome (mutate rate g maxs) g') : Feasible maxs g' := by
  obtain ⟨l, k⟩ := mutate_spec rate g maxs h
  refine ⟨l.trans hg.1, fun i x m hx hm => ?_⟩
  rcases k i x hx with e | ⟨m', e, hlt⟩
  · exact hg.2 i x m e hm
  · rw [hm] at e; cases e; exact hlt

theorem mutateIf_feasible {c : GaCfg} {b : Bool} {g g' : Genome} (hg : Feasible c.maxs g)
    (h : Outcome (mutateIf c b g) g') : Feasible c.maxs g' := by
  unfold mutateIf at h
  split at h
  · exact mutate_feasible hg h
  · exact Outcome.pure h ▸ hg

theorem crossover_feasible {c : GaCfg} {p1 p2 : Genome} {ch : Genome × Genome}
    (h1 : Feasible c.maxs p1) (h2 : Feasible c.maxs p2) (h : Outcome (crossover c p1 p2) ch) :
    Feasible c.maxs ch.1 ∧ Feasible c.maxs ch.2 := by
  obtain ⟨l1, l2, k⟩ := crossover_spec h (h1.1.trans h2.1.symm)
  refine ⟨⟨l1.trans h1.1, fun i x m hx hm => ?_⟩, ⟨l2.trans h1.1, fun i x m hx hm => ?_⟩⟩
  · rcases k i with ⟨e, -⟩ | ⟨e, -⟩
    · exact h1.2 i x m (e ▸ hx) hm
    · exact h2.2 i x m (e ▸ hx) hm
  · rcases k i with ⟨-, e⟩ | ⟨-, e⟩
    · exact h2.2 i x m (e ▸ hx) hm
    · exact h1.2 i x m (e ▸ hx) hm

theorem children_spec {c : GaCfg} {sel nx nx' : List Genome} (h : Outcome (children c sel nx) nx') :
    ∃ d1 d2, nx' = nx ++ [d1, d2] ∧ ((∀ g ∈ sel, Feasible c.maxs g) →
      Feasible c.maxs d1 ∧ Feasible c.maxs d2) := by
  obtain ⟨p1, hp1, h⟩ := Outcome.bind h
  obtain ⟨p2, hp2, h⟩ := Outcome.bind h
  obtain ⟨ch, hch, h⟩ := Outcome.bind h
  obtain ⟨c1, hc1, h⟩ := Outcome.bind h
  obtain ⟨c2, hc2, h⟩ := Outcome.bind h
  obtain ⟨q, -, h⟩ := Outcome.bind h
  obtain ⟨d1, hd1, h⟩ := Outcome.bind h
  obtain ⟨d2, hd2, h⟩ := Outcome.bind h
  have := Outcome.pure h
  refine ⟨d1, d2, this.symm, fun hs => ?_⟩
  obtain ⟨f1, f2⟩ := crossover_feasible (hs p1 (Outcome.choice hp1)) (hs p2 (Outcome.choice hp2)) hch
  exact ⟨mutateIf_feasible (mutateIf_feasible f1 hc1) hd1,
    mutateIf_feasible (mutateIf_feasible f2 hc2) hd2⟩

theorem times_children {c : GaCfg} {sel : List Genome} : ∀ (n : ℕ) {nx nx' : List Genome},
    Outcome (RandM.times (children c sel) n nx) nx' →
    ∃ ds, nx' = nx ++ ds ∧ ds.length = 2 * n ∧
      ((∀ g ∈ sel, Feasible c.maxs g) → ∀ g ∈ ds, Feasible c.maxs g)
  | 0, nx, nx', h => ⟨[], by rw [← Outcome.pure h]; simp, rfl, by simp⟩
  | n + 1, nx, nx', h => by
    obtain ⟨m, hm, h⟩ := Outcome.bind h
    obtain ⟨d1, d2, e, hf⟩ := children_spec hm
    obtain ⟨ds, e2, l, hf2⟩ := times_children n h
    refine ⟨d1 :: d2 :: ds, by rw [e2, e]; simp, by simp [l]; omega, fun hs g hg => ?_⟩
    rcases List.mem_cons.mp hg with rfl | hg
    · exact (hf hs).1
    · rcases List.mem_cons.mp hg with rfl | hg
      · exact (hf hs).2
      · exact hf2 hs g hg

theorem elites_mem {c : GaCfg} {pop : List Genome} {g : Genome} (h : g ∈ elites c pop) : g ∈ pop :=
  (List.perm_insertionSort _ pop).subset (List.take_subset _ _ h)

theorem sorted_pop (c : GaCfg) (pop : List Genome) :
    (pop.insertionSort (fun a b => c.fitness b ≤ c.fitness a)).Pairwise
      (fun a b => c.fitness b ≤ c.fitness a) := by
  have : Std.Total (fun a b : Genome => c.fitness b ≤ c.fitness a) := ⟨fun _ _ => le_total _ _⟩
  have : IsTrans Genome (fun a b : Genome => c.fitness b ≤ c.fitness a) :=
    ⟨fun _ _ _ h1 h2 => le_trans h2 h1⟩
  exact List.pairwise_insertionSort _ pop

/-- The first elite is a best genome. -/
theorem elites_head {c : GaCfg} {pop : List Genome} (he : 1 ≤ c.eliteSize) (hp : pop ≠ []) :
    ∃ b t, elites c pop = b :: t ∧ b ∈ pop ∧ ∀ g ∈ pop, c.fitness g ≤ c.fitness b := by
  have hs := sorted_pop c pop
  have hperm := List.perm_insertionSort (fun a b => c.fitness b ≤ c.fitness a) pop
  unfold elites
  cases hm : pop.insertionSort (fun a b => c.fitness b ≤ c.fitness a) with
  | nil => rw [hm] at hperm; exact absurd hperm.symm.eq_nil hp
  | cons b t =>
    rw [hm] at hs hperm
    obtain ⟨e, he⟩ : ∃ e, c.eliteSize = e + 1 := ⟨c.eliteSize - 1, by omega⟩
    refine ⟨b, t.take e, by rw [he]; rfl, hperm.subset (List.mem_cons_self ..), fun g hg => ?_⟩
    rcases List.mem_cons.mp (hperm.symm.subset hg) with rfl | hg
    · exact le_rfl
    · exact (List.pairwise_cons.mp hs).1 g hg

theorem generation_spec {c : GaCfg} {pop pop' : List Genome} (h : Outcome (generation c pop) pop') :
    ∃ ds, pop' = (elites c pop ++ ds).take c.popSize ∧ ds.length = 2 * (c.popSize / 2) ∧
      ((∀ g ∈ pop, Feasible c.maxs g) → ∀ g ∈ ds, Feasible c.maxs g) := by
  obtain ⟨sel, hsel, h⟩ := Outcome.bind h
  obtain ⟨nx, hn, h⟩ := Outcome.bind h
  obtain ⟨ds, e, l, hf⟩ := times_children _ hn
  refine ⟨ds, by rw [← Outcome.pure h, e], l, fun hp => hf fun g hg => ?_⟩
  obtain ⟨three, -, hsub, hg, -⟩ := (tournament_spec hsel).2 g hg
  exact hp g (hsub.subset hg)

theorem genBest_spec (f : Genome → ℚ) (pop : List Genome) :
    (genBest f pop = none ↔ pop = []) ∧
    ∀ b, genBest f pop = some b → b ∈ pop ∧ ∀ g ∈ pop, f g ≤ f b := by
  have key : ∀ (l : List Genome) (o : Option Genome),
      (l.foldl (fun b g => match b with
        | none => some g
        | some h => if f h < f g then some g else some h) o = none ↔ o = none ∧ l = []) ∧
      ∀ b, l.foldl (fun b g => match b with
        | none => some g
        | some h => if f h < f g then some g else some h) o = some b →
        (o = some b ∨ b ∈ l) ∧ (∀ h, o = some h → f h ≤ f b) ∧ ∀ g ∈ l, f g ≤ f b := by
    intro l
    induction l with
    | nil =>
      intro o
      refine ⟨by simp, fun b hb => ?_⟩
      simp only [List.foldl_nil] at hb
      subst hb
      exact ⟨Or.inl rfl, fun h hh => by cases hh; exact le_rfl, by simp⟩
    | cons g t ih =>
      intro o
      simp only [List.foldl_cons]
      obtain ⟨o', ho', hlt⟩ : ∃ o' : Genome, (match o with
          | none => some g
          | some h => if f h < f g then some g else some h) = some o' ∧
          (o = some o' ∨ o' = g) ∧ f g ≤ f o' ∧ ∀ h, o = some h → f h ≤ f o' := by
        cases o with
        | none => exact ⟨g, rfl, Or.inr rfl, le_rfl, by simp⟩
        | some h =>
          by_cases hfg : f h < f g
          · refine ⟨g, by simp [hfg], Or.inr rfl, le_rfl, ?_⟩
            intro h' e; cases e; exact hfg.le
          · refine ⟨h, by simp [hfg], Or.inl rfl, not_lt.mp hfg, ?_⟩
            intro h' e; cases e; exact le_rfl
      rw [ho']
      obtain ⟨i1, i2⟩ := ih (some o')
      refine ⟨by rw [i1]; simp, fun b hb => ?_⟩
      obtain ⟨j1, j2, j3⟩ := i2 b hb
      have j2 := j2 o' rfl
      refine ⟨?_, fun h hh => (hlt.2.2 h hh).trans j2, fun x hx => ?_⟩
      · rcases j1 with j1 | j1
        · cases j1
          rcases hlt.1 with e | e
          · exact Or.inl e
          · exact Or.inr (e ▸ List.mem_cons_self ..)
        · exact Or.inr (List.mem_cons_of_mem _ j1)
      · rcases List.mem_cons.mp hx with rfl | hx
        · exact hlt.2.1.trans j2
        · exact j3 x hx
  obtain ⟨k1, k2⟩ := key pop none
  refine ⟨k1.trans (by simp), fun b hb => ?_⟩
  obtain ⟨j1, -, j3⟩ := k2 b hb
  exact ⟨by simpa using j1, j3⟩

end GA
end UX
