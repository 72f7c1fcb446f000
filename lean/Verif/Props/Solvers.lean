import Verif.Proofs.Solvers

/-!
# Claims about the DUE, D2D and genetic solvers (C43, C44, C45)
-/

namespace UX

/-! ## C43 -/

/-- A new D2D solver returns a day on which all trips were completed and whose average travel time is
the least of all such days; it returns nothing if there is no such day. -/
theorem C43_average (days : List (World × Analyzer)) :
    (d2dSolve none days = none ↔ ∀ D ∈ days, D.2.tripAll ≠ D.2.tripCompleted) ∧
    ∀ B, d2dSolve none days = some B →
      B ∈ days ∧ B.2.tripAll = B.2.tripCompleted ∧
      ∀ D ∈ days, D.2.tripAll = D.2.tripCompleted → B.2.averageTravelTime ≤ D.2.averageTravelTime := by
  obtain ⟨h1, h2⟩ := d2dKeep_fold days none
  refine ⟨h1.trans (by simp [Analyzer.allDone]), fun B hB => ?_⟩
  obtain ⟨j1, -, j3⟩ := h2 B hB
  rcases j1 with j1 | j1
  · cases j1
  · exact ⟨j1.1, j1.2, j3⟩

/-- If the statistics are those of the worlds and all days have the same number of trips, the day
returned has the least total travel time of all days on which all trips were completed. -/
theorem C43_total (days : List (World × Analyzer))
    (hstat : ∀ D ∈ days, D.2 = Analyzer.new.basicAnalysis D.1) (n : ℕ)
    (hn : ∀ D ∈ days, D.2.tripAll = n) (B : World × Analyzer) (hB : d2dSolve none days = some B) :
    B ∈ days ∧ B.2.tripAll = B.2.tripCompleted ∧
    ∀ D ∈ days, D.2.tripAll = D.2.tripCompleted → B.2.totalTravelTime ≤ D.2.totalTravelTime := by
  obtain ⟨h1, h2, h3⟩ := (C43_average days).2 B hB
  refine ⟨h1, h2, fun D hD hd => ?_⟩
  have hle := h3 D hD hd
  have key : ∀ E ∈ days, E.2.tripAll = E.2.tripCompleted →
      E.2.totalTravelTime = if n = 0 then -1 else E.2.averageTravelTime * n := by
    intro E hE he
    have hc : E.2.tripCompleted = n := he ▸ hn E hE
    have e := hstat E hE
    rw [e] at hc ⊢
    simp only [Analyzer.basicAnalysis] at hc ⊢
    by_cases h0 : n = 0
    · subst h0; simp [hc]
    · have h0' : (n : ℚ) ≠ 0 := by exact_mod_cast h0
      rw [hc, if_neg h0, if_pos h0, if_pos h0, div_mul_cancel₀ _ h0']
  rw [key B h1 h2, key D hD hd]
  split
  · exact le_rfl
  · exact mul_le_mul_of_nonneg_right hle (by positivity)

/-- The solver object keeps its solution between calls: a later call returns a day only if it is not
worse than the solution of the earlier calls. -/
theorem C43_resume (P : World × Analyzer) (days : List (World × Analyzer)) :
    ∃ B, d2dSolve (some P) days = some B ∧ (B = P ∨ B ∈ days ∧ B.2.tripAll = B.2.tripCompleted) ∧
      B.2.averageTravelTime ≤ P.2.averageTravelTime ∧
      ∀ D ∈ days, D.2.tripAll = D.2.tripCompleted → B.2.averageTravelTime ≤ D.2.averageTravelTime := by
  obtain ⟨h1, h2⟩ := d2dKeep_fold days (some P)
  cases h : d2dSolve (some P) days with
  | none => exact absurd (h1.mp h).1 (by simp)
  | some B =>
    obtain ⟨j1, j2, j3⟩ := h2 B h
    refine ⟨B, rfl, ?_, j2 P rfl, j3⟩
    rcases j1 with j1 | j1
    · cases j1; exact Or.inl rfl
    · exact Or.inr j1

/-! ## C44 -/

/-- What one vehicle gets for the next day: nothing if it did not finish; the first route of the set if
the user gave route sets and it did not follow one of them; otherwise its own route or, if it may swap
and some alternative is strictly cheaper, a cheapest alternative. -/
def NextRoute {ρ : Type} (given : Bool) (p : Bool × DayVeh ρ) (s : Option ρ) : Prop :=
  (p.2.ended = false → s = none) ∧
  (p.2.ended = true → ¬ p.2.takesPart given → s = p.2.alts.head?.map Prod.fst) ∧
  (p.2.takesPart given → ∃ r, s = some r ∧ Swapped p.1 p.2 r)

section
variable {ρ : Type} [DecidableEq ρ]

theorem takesPart_iff (given : Bool) (v : DayVeh ρ) (he : v.ended = true) :
    v.takesPart given ↔ ¬ (given = true ∧ v.route ∉ v.alts.map Prod.fst) := by
  simp only [DayVeh.takesPart, he, true_and, List.mem_map, not_and, not_not]

theorem swapVeh_ok {given : Bool} {dn : ℚ} {p : Bool × DayVeh ρ} {R R' : DayResult ρ}
    (h : swapVeh given dn p.1 p.2 R = .ok R') :
    ∃ s, R'.specified = R.specified ++ [s] ∧ NextRoute given p s ∧
      (p.2.takesPart given → p.1 = true → p.2.improvable → R'.nSwap = R.nSwap + dn) ∧
      (¬ (p.2.takesPart given ∧ p.1 = true ∧ p.2.improvable) → R'.nSwap = R.nSwap) ∧
      (p.2.takesPart given → p.2.improvable → R'.nPotential = R.nPotential + dn) ∧
      (¬ (p.2.takesPart given ∧ p.2.improvable) → R'.nPotential = R.nPotential) := by
  obtain ⟨flag, v⟩ := p
  dsimp only at h ⊢
  unfold swapVeh at h
  by_cases he : v.ended = false
  · rw [if_pos he] at h
    cases h
    have hn : ¬ v.takesPart given := fun h => by rw [h.1] at he; cases he
    refine ⟨none, rfl, ⟨fun _ => rfl, fun h => ?_, fun h => absurd h hn⟩, fun h => absurd h hn,
      fun _ => rfl, fun h => absurd h hn, fun _ => rfl⟩
    simp [he] at h
  · rw [if_neg he] at h
    have he' : v.ended = true := by simpa using he
    have ht := takesPart_iff given v he'
    by_cases hg : given = true ∧ v.route ∉ v.alts.map Prod.fst
    · rw [if_pos hg] at h
      have hn : ¬ v.takesPart given := fun h => (ht.mp h) hg
      cases hal : v.alts with
      | nil => rw [hal] at h; cases h
      | cons q t =>
        rw [hal] at h
        cases h
        refine ⟨some q.1, rfl, ⟨fun h => absurd h he, fun _ _ => ?_, fun h => absurd h hn⟩,
          fun h => absurd h hn, fun _ => rfl, fun h => absurd h hn, fun _ => rfl⟩
        show some q.1 = v.alts.head?.map Prod.fst
        rw [hal]; rfl
    · rw [if_neg hg] at h
      cases h
      have hp := ht.mpr hg
      have c := swapLoop_changed flag v
      have d := swapLoop_potential flag v
      refine ⟨_, rfl, ⟨fun h => absurd h he, fun _ h => absurd hp h,
        fun _ => ⟨_, rfl, swapLoop_spec flag v⟩⟩, fun _ hf hi => ?_, fun hn => ?_, fun _ hi => ?_,
        fun hn => ?_⟩
      · dsimp only; rw [if_pos (c.mpr ⟨hf, hi⟩)]
      · dsimp only; rw [if_neg (fun h => hn ⟨hp, c.mp h⟩)]
      · dsimp only; rw [if_pos (d.mpr hi)]
      · dsimp only; rw [if_neg (fun h => hn ⟨hp, d.mp h⟩)]

open Classical in
/-- Claim for a whole day, for all costs and random decisions: the route specified for each vehicle, the
number of swaps and the number of potential swaps. -/
theorem C44_day (given : Bool) (dn : ℚ) (vs : List (Bool × DayVeh ρ)) (R : DayResult ρ)
    (h : swapDay given dn vs = .ok R) :
    List.Forall₂ (NextRoute given) vs R.specified ∧
    R.nSwap = dn * (vs.filter fun p => p.2.takesPart given ∧ p.1 = true ∧ p.2.improvable).length ∧
    R.nPotential = dn * (vs.filter fun p => p.2.takesPart given ∧ p.2.improvable).length := by
  have key : ∀ (vs : List (Bool × DayVeh ρ)) (R0 R : DayResult ρ),
      vs.foldlM (fun R p => swapVeh given dn p.1 p.2 R) R0 = .ok R →
      ∃ ss, R.specified = R0.specified ++ ss ∧ List.Forall₂ (NextRoute given) vs ss ∧
      R.nSwap = R0.nSwap +
        dn * (vs.filter fun p => p.2.takesPart given ∧ p.1 = true ∧ p.2.improvable).length ∧
      R.nPotential = R0.nPotential +
        dn * (vs.filter fun p => p.2.takesPart given ∧ p.2.improvable).length := by
    intro vs
    induction vs with
    | nil =>
      intro R0 R h
      cases h
      exact ⟨[], by simp, .nil, by simp, by simp⟩
    | cons p t ih =>
      intro R0 R h
      rw [List.foldlM_cons, bind_ok] at h
      obtain ⟨R1, h1, h2⟩ := h
      obtain ⟨s, e, hn, a1, a2, b1, b2⟩ := swapVeh_ok h1
      obtain ⟨ss, e', hf, c1, c2⟩ := ih R1 R h2
      refine ⟨s :: ss, by rw [e', e]; simp, .cons hn hf, ?_, ?_⟩
      · rw [c1]
        by_cases hp : p.2.takesPart given ∧ p.1 = true ∧ p.2.improvable
        · rw [a1 hp.1 hp.2.1 hp.2.2, List.filter_cons_of_pos (by simpa using hp), List.length_cons]
          push_cast; ring
        · rw [a2 hp, List.filter_cons_of_neg (by simpa using hp)]
      · rw [c2]
        by_cases hp : p.2.takesPart given ∧ p.2.improvable
        · rw [b1 hp.1 hp.2, List.filter_cons_of_pos (by simpa using hp), List.length_cons]
          push_cast; ring
        · rw [b2 hp, List.filter_cons_of_neg (by simpa using hp)]
  obtain ⟨ss, e, hf, c1, c2⟩ := key vs _ R h
  refine ⟨by rw [e]; simpa using hf, by rw [c1]; simp, by rw [c2]; simp⟩

/-- A vehicle that takes part in swapping is only ever moved to a strictly cheaper route, which is a
cheapest one of its set. -/
theorem C44_never_worse_partial (given : Bool) (dn : ℚ) (vs : List (Bool × DayVeh ρ)) (R : DayResult ρ)
    (h : swapDay given dn vs = .ok R) (i : ℕ) (flag : Bool) (v : DayVeh ρ) (r : ρ)
    (hv : vs[i]? = some (flag, v)) (hr : R.specified[i]? = some (some r))
    (hp : v.takesPart given) (hne : r ≠ v.route) :
    flag = true ∧ ∃ c, (r, c) ∈ v.alts ∧ c < v.cost ∧ ∀ p ∈ v.alts, c ≤ p.2 := by
  have hf := (C44_day given dn vs R h).1
  obtain ⟨hi, e1⟩ := List.getElem?_eq_some_iff.mp hv
  obtain ⟨hi', e2⟩ := List.getElem?_eq_some_iff.mp hr
  have := hf.get hi hi'
  simp only [List.get_eq_getElem, e1, e2] at this
  obtain ⟨r', e, hs⟩ := this.2.2 hp
  cases e
  by_cases hfl : flag = true
  · by_cases hb : ∃ p ∈ v.alts, p.2 < v.cost
    · exact ⟨hfl, hs.move hfl hb⟩
    · push Not at hb
      exact absurd (hs.stay (Or.inr hb)) hne
  · exact absurd (hs.stay (Or.inl (by simpa using hfl))) hne

end

/-- The costs compared by the DUE solver for a finished vehicle: travel time of the travelled route and
of each alternative, both entered at the time at which the vehicle entered its first link, plus the
tolls at the times at which the links are entered. -/
theorem C44_costs (W : World) (toll : LinkId → ℚ → ℚ) (routes : List (List LinkId)) (v : VehId)
    (d : DayVeh (List LinkId)) (h : W.dueVeh toll routes v = .ok d) :
    (d.ended = true ↔ W.V.state v = .ended) ∧ (d.ended = true →
    ∃ (t0 : ℚ) (ts : List ℚ) (tt : ℚ) (tts : List ℚ),
      W.traveledRoute v true false = .ok (d.route, t0 :: ts) ∧
      W.routeTravelTime d.route 0 t0 = .ok (tt, tts) ∧
      d.cost = tt + ((d.route.zip (t0 :: ts)).map fun p => toll p.1 p.2).sum ∧
      List.Forall₂ (fun r (p : List LinkId × ℚ) => p.1 = r ∧ ∃ tt tts,
        W.routeTravelTime r 0 t0 = .ok (tt, tts) ∧
        p.2 = tt + ((r.zip ((List.range tts.length).map fun i => t0 + (tts.take i).sum)).map
          fun q => toll q.1 q.2).sum) routes d.alts) := by
  unfold World.dueVeh at h
  rw [bind_ok] at h
  obtain ⟨p, hp, h⟩ := h
  obtain ⟨r, ts⟩ := p
  dsimp only at h
  cases ts with
  | nil => cases h
  | cons t0 ts =>
    dsimp only at h
    by_cases hs : W.V.state v = .ended
    · rw [if_neg (not_not.mpr hs), bind_ok] at h
      obtain ⟨c, hc, h⟩ := h
      rw [bind_ok] at h
      obtain ⟨alts, ha, h⟩ := h
      rw [pure_ok] at h
      subst h
      refine ⟨by simp [hs], fun _ => ⟨t0, ts, c.1, c.2, hp, hc, rfl, ?_⟩⟩
      refine (mapM_ok_forall ha).imp fun a b hab => ?_
      rw [bind_ok] at hab
      obtain ⟨q, hq, hab⟩ := hab
      rw [pure_ok] at hab
      subst hab
      exact ⟨rfl, q.1, q.2, hq, rfl⟩
    · rw [if_pos hs, pure_ok] at h
      subst h
      simp [hs]

/-- The claim fails for a vehicle that did not follow a route of the given set: it is moved to the first
route even if that is more expensive. -/
theorem C44_forced_false : ∃ (v : DayVeh ℕ) (R : DayResult ℕ),
    swapDay true 5 [(false, v)] = .ok R ∧ v.ended = true ∧ v.cost = 10 ∧
    v.alts = [(1, 30), (2, 20)] ∧ R.specified = [some 1] :=
  ⟨{ ended := true, route := 0, cost := 10, alts := [(1, 30), (2, 20)] }, _, rfl, rfl, rfl, rfl, rfl⟩

/-- The reported gap is not the difference between the cost of the vehicle and the least cost: neither
for a vehicle that swaps nor for one that does not. -/
theorem C44_gap_false : ∃ (v : DayVeh ℕ) (R R' : DayResult ℕ),
    v.ended = true ∧ v.cost = 10 ∧ v.alts = [(1, 4), (2, 3), (3, 9)] ∧
    swapDay false 5 [(true, v)] = .ok R ∧ R.totalGap = 1 ∧
    swapDay false 5 [(false, v)] = .ok R' ∧ R'.totalGap = 1 := by
  refine ⟨{ ended := true, route := 0, cost := 10, alts := [(1, 4), (2, 3), (3, 9)] }, _, _, rfl, rfl,
    rfl, rfl, ?_, rfl, ?_⟩
  · show (0 : ℚ) + _ = 1
    norm_num [swapLoop, swapStep]
  · show (0 : ℚ) + _ = 1
    norm_num [swapLoop, swapStep]

/-- A vehicle with two better alternatives is moved to the cheaper one, a vehicle that may not swap
stays. -/
example : (swapDay false 5 [(true, { ended := true, route := 0, cost := 10, alts := [(0, 10), (1, 4), (2, 3)] }),
    (false, { ended := true, route := 0, cost := 10, alts := [(0, 10), (1, 4)] }),
    (true, { ended := false, route := 0, cost := 0, alts := [] })]).map (fun R => (R.specified, R.nSwap, R.nPotential))
    = .ok ([some 2, some (0 : ℕ), none], 5, 10) := by
  decide +kernel

/-! ## C45 -/

/-- Crossover keeps the length and takes each gene of the two children from the two parents at the same
position. -/
theorem C45_crossover (c : GaCfg) (p1 p2 : Genome) (ch : Genome × Genome)
    (h : Outcome (GA.crossover c p1 p2) ch) (hl : p1.length = p2.length) :
    ch.1.length = p1.length ∧ ch.2.length = p2.length ∧
    ∀ i : ℕ, (ch.1[i]? = p1[i]? ∧ ch.2[i]? = p2[i]?) ∨ (ch.1[i]? = p2[i]? ∧ ch.2[i]? = p1[i]?) := by
  obtain ⟨a, b, d⟩ := GA.crossover_spec h hl
  exact ⟨a, b.trans hl, d⟩

/-- Mutation keeps the length; each gene is unchanged or a valid route number. -/
theorem C45_mutate (rate : ℚ) (g g' : Genome) (maxs : List ℕ) (h : Outcome (GA.mutate rate g maxs) g') :
    g'.length = g.length ∧ ∀ (i x : ℕ), g'[i]? = some x →
      g[i]? = some x ∨ ∃ m, maxs[i]? = some m ∧ x < m :=
  GA.mutate_spec rate g maxs h

/-- Tournament selection: as many genomes as before, each the fittest of three. -/
theorem C45_tournament (c : GaCfg) (pop sel : List Genome) (h : Outcome (GA.tournament c pop) sel) :
    sel.length = pop.length ∧ ∀ g ∈ sel, ∃ three : List Genome, three.length = 3 ∧
      three.Subperm pop ∧ g ∈ three ∧ ∀ x ∈ three, c.fitness x ≤ c.fitness g :=
  GA.tournament_spec h

/-- A generation of feasible genomes is followed by one of feasible genomes, of the prescribed size if
there are elites. -/
theorem C45_generation (c : GaCfg) (pop pop' : List Genome) (h : Outcome (GA.generation c pop) pop')
    (hf : ∀ g ∈ pop, Feasible c.maxs g) :
    (∀ g ∈ pop', Feasible c.maxs g) ∧
    (1 ≤ c.eliteSize → pop ≠ [] → pop'.length = c.popSize) := by
  obtain ⟨ds, e, l, hd⟩ := GA.generation_spec h
  constructor
  · intro g hg
    rw [e] at hg
    rcases List.mem_append.mp (List.take_subset _ _ hg) with hg | hg
    · exact hf g (GA.elites_mem hg)
    · exact hd hf g hg
  · intro he hp
    obtain ⟨b, t, eb, -⟩ := GA.elites_head (c := c) he hp
    rw [e, eb, List.length_take, List.length_append, l, List.length_cons]
    omega

/-- With at least one elite, a best genome of a generation is in the next one. -/
theorem C45_best_kept (c : GaCfg) (pop pop' : List Genome) (h : Outcome (GA.generation c pop) pop')
    (he : 1 ≤ c.eliteSize) (hs : 1 ≤ c.popSize) (hp : pop ≠ []) :
    ∃ b ∈ pop', b ∈ pop ∧ ∀ g ∈ pop, c.fitness g ≤ c.fitness b := by
  obtain ⟨ds, e, -, -⟩ := GA.generation_spec h
  obtain ⟨b, t, eb, hb, hm⟩ := GA.elites_head (c := c) he hp
  refine ⟨b, ?_, hb, hm⟩
  rw [e, eb]
  obtain ⟨k, hk⟩ : ∃ k, c.popSize = k + 1 := ⟨c.popSize - 1, by omega⟩
  rw [hk]
  simp

/-- The populations of a run of the generation loop. -/
theorem solveLoop_spec (c : GaCfg) : ∀ (n : ℕ) (R : GA.Result) (pop : List Genome)
    (S : GA.Result × List Genome), Outcome (GA.solveLoop c n R pop) S →
    ∃ pops : List (List Genome), pops.length = n + 1 ∧ pops[0]? = some pop ∧
      pops[n]? = some S.2 ∧ Generations c pops ∧
      (n = 0 → S.1 = R) ∧
      ∀ p, 0 < n → pops[n - 1]? = some p → S.1.intermid = GA.genBest c.fitness p ∧
        (p ≠ [] → S.1.sol = p.getLast?)
  | 0, R, pop, S, h => by
    cases Outcome.pure h
    refine ⟨[pop], rfl, rfl, rfl, ?_, fun _ => rfl, fun p hp => absurd hp (by omega)⟩
    intro k p q hp hq
    simp at hq
  | n + 1, R, pop, S, h => by
    obtain ⟨pop', hg, h⟩ := Outcome.bind h
    obtain ⟨pops, hl, h0, hn, hG, hz, hlast⟩ := solveLoop_spec c n _ pop' S h
    refine ⟨pop :: pops, by simp [hl], rfl, by simpa using hn, ?_, by simp, ?_⟩
    · intro k p q hp hq
      cases k with
      | zero =>
        simp only [List.getElem?_cons_zero, Option.some.injEq] at hp
        simp only [zero_add, List.getElem?_cons_succ, h0, Option.some.injEq] at hq
        rw [← hp, ← hq]; exact hg
      | succ k => exact hG k p q (by simpa using hp) (by simpa using hq)
    · intro p _ hp
      simp only [Nat.add_sub_cancel] at hp
      cases n with
      | zero =>
        simp only [List.getElem?_cons_zero, Option.some.injEq] at hp
        subst hp
        rw [hz rfl]
        refine ⟨rfl, fun hne => ?_⟩
        cases hgl : pop.getLast? with
        | none => simp [List.getLast?_eq_none_iff] at hgl; exact absurd hgl hne
        | some g => rfl
      | succ n => exact hlast p (by omega) (by simpa using hp)

theorem generations_best {c : GaCfg} {pops : List (List Genome)} (hG : Generations c pops)
    (he : 1 ≤ c.eliteSize) (hs : 1 ≤ c.popSize) (h0 : ∀ p, pops[0]? = some p → p ≠ []) :
    ∀ (k : ℕ) (p : List Genome), pops[k]? = some p → p ≠ [] ∧
      ∀ (j : ℕ) (q : List Genome), j ≤ k → pops[j]? = some q →
        ∀ g ∈ q, ∃ b ∈ p, c.fitness g ≤ c.fitness b := by
  intro k
  induction k with
  | zero =>
    intro p hp
    refine ⟨h0 p hp, fun j q hj hq g hg => ?_⟩
    obtain rfl : j = 0 := by omega
    rw [hp] at hq; cases hq
    exact ⟨g, hg, le_rfl⟩
  | succ k ih =>
    intro p hp
    have hk : k < pops.length := by
      have := (List.getElem?_eq_some_iff.mp hp).1; omega
    obtain ⟨hne, ih⟩ := ih pops[k] (List.getElem?_eq_getElem hk)
    obtain ⟨b, hb, hbp, hbest⟩ :=
      C45_best_kept c _ p (hG k _ p (List.getElem?_eq_getElem hk) hp) he hs hne
    refine ⟨List.ne_nil_of_mem hb, fun j q hj hq g hg => ?_⟩
    rcases Nat.lt_or_ge j (k + 1) with hlt | hge
    · obtain ⟨b', hb', hle⟩ := ih j q (by omega) hq g hg
      exact ⟨b, hb, hle.trans (hbest b' hb')⟩
    · obtain rfl : j = k + 1 := by omega
      rw [hp] at hq; cases hq
      exact ⟨g, hg, le_rfl⟩

/-- The best fitness never decreases over the generations, if there are elites. -/
theorem C45_monotone (c : GaCfg) (pops : List (List Genome)) (hG : Generations c pops)
    (he : 1 ≤ c.eliteSize) (hs : 1 ≤ c.popSize) (h0 : ∀ p, pops[0]? = some p → p ≠ [])
    (j k : ℕ) (hjk : j ≤ k) (p q : List Genome) (hq : pops[j]? = some q) (hp : pops[k]? = some p) :
    ∀ g ∈ q, ∃ b ∈ p, c.fitness g ≤ c.fitness b :=
  (generations_best hG he hs h0 k p hp).2 j q hjk hq

/-- With elites, after `n` generations `W_intermid_solution` is a genome of the last generation simulated
whose fitness is the largest of all genomes simulated during the whole run; all these genomes are
feasible if the initial ones are. -/
theorem C45_intermediate_partial (c : GaCfg) (n : ℕ) (hn : 0 < n) (R : GA.Result) (pop : List Genome)
    (hpop : pop ≠ []) (he : 1 ≤ c.eliteSize) (hs : 1 ≤ c.popSize) (S : GA.Result × List Genome)
    (h : Outcome (GA.solveLoop c n R pop) S) :
    ∃ pops : List (List Genome), pops.length = n + 1 ∧ pops[0]? = some pop ∧ Generations c pops ∧
      ((∀ g ∈ pop, Feasible c.maxs g) → ∀ p ∈ pops, ∀ g ∈ p, Feasible c.maxs g) ∧
      ∃ b, S.1.intermid = some b ∧ (∃ p, pops[n - 1]? = some p ∧ b ∈ p ∧ S.1.sol = p.getLast?) ∧
        ∀ (j : ℕ) (q : List Genome), j < n → pops[j]? = some q →
          ∀ g ∈ q, c.fitness g ≤ c.fitness b := by
  obtain ⟨pops, hl, h0, -, hG, -, hlast⟩ := solveLoop_spec c n R pop S h
  refine ⟨pops, hl, h0, hG, ?_, ?_⟩
  · intro hf
    have : ∀ (k : ℕ) (p : List Genome), pops[k]? = some p → ∀ g ∈ p, Feasible c.maxs g := by
      intro k
      induction k with
      | zero => intro p hp; rw [h0] at hp; cases hp; exact hf
      | succ k ih =>
        intro p hp
        have hk : k < pops.length := by
          have := (List.getElem?_eq_some_iff.mp hp).1; omega
        exact (C45_generation c _ p (hG k _ p (List.getElem?_eq_getElem hk) hp)
          (ih _ (List.getElem?_eq_getElem hk))).1
    intro p hp
    obtain ⟨i, hi, rfl⟩ := List.getElem_of_mem hp
    exact this i _ (List.getElem?_eq_getElem hi)
  · have hk : n - 1 < pops.length := by omega
    have e := List.getElem?_eq_getElem hk
    obtain ⟨hne, hb⟩ := generations_best hG he hs (by rw [h0]; rintro p ⟨⟩; exact hpop) (n - 1) _ e
    obtain ⟨e1, e2⟩ := hlast _ hn e
    obtain ⟨g1, g2⟩ := GA.genBest_spec c.fitness pops[n - 1]
    cases hgb : GA.genBest c.fitness pops[n - 1] with
    | none => exact absurd (g1.mp hgb) hne
    | some b =>
      obtain ⟨m1, m2⟩ := g2 b hgb
      refine ⟨b, e1.trans hgb, ⟨_, e, m1, e2 hne⟩, fun j q hj hq g hg => ?_⟩
      obtain ⟨b', hb', hle⟩ := hb j q (by omega) hq g hg
      exact hle.trans (m2 b' hb')

/-- The initial population: feasible genomes of the prescribed number. -/
theorem C45_initial (c : GaCfg) (init : Genome) (hi : Feasible c.maxs init) (pop : List Genome)
    (h : Outcome (GA.initPop c init) pop) :
    pop.length = c.popSize ∧ ∀ g ∈ pop, Feasible c.maxs g := by
  obtain ⟨pop0, h0, h⟩ := Outcome.bind h
  have hf0 := Outcome.collect _ h0
  split at h
  · exact (Outcome.fail h).elim
  · obtain ⟨l1, h1, h⟩ := Outcome.bind h
    have hinv : ∀ rate, ∀ x, ∀ a : ℕ, ∀ y, (x.length = c.popSize ∧ ∀ g ∈ x, Feasible c.maxs g) →
        Outcome (GA.mutateInto c rate x a) y → y.length = c.popSize ∧ ∀ g ∈ y, Feasible c.maxs g := by
      intro rate x a y hx hy
      unfold GA.mutateInto at hy
      cases x with
      | nil => exact (Outcome.fail hy).elim
      | cons g t =>
        obtain ⟨m, hm, hy⟩ := Outcome.bind hy
        have := Outcome.pure hy
        subst this
        have hmf := GA.mutate_feasible (hx.2 g (List.mem_cons_self ..)) hm
        refine ⟨by simpa using hx.1, fun z hz => ?_⟩
        rcases List.mem_or_eq_of_mem_set hz with hz | rfl
        · exact hx.2 z hz
        · exact hmf
    have hbase : (pop0.set 0 init).length = c.popSize ∧
        ∀ g ∈ pop0.set 0 init, Feasible c.maxs g := by
      refine ⟨by rw [List.length_set, ← hf0.length_eq, List.length_range], fun g hg => ?_⟩
      rcases List.mem_or_eq_of_mem_set hg with hg | rfl
      · obtain ⟨i, hi', rfl⟩ := List.getElem_of_mem hg
        have := hf0.get (i := i) (by rw [hf0.length_eq]; exact hi') hi'
        simp only [List.get_eq_getElem] at this
        have hc := Outcome.collect _ this
        refine ⟨hc.length_eq.symm, fun k x m hx hm => ?_⟩
        obtain ⟨k1, e1⟩ := List.getElem?_eq_some_iff.mp hx
        obtain ⟨k2, e2⟩ := List.getElem?_eq_some_iff.mp hm
        have := hc.get k2 k1
        simp only [List.get_eq_getElem, e1, e2] at this
        cases m with
        | zero => exact (Outcome.fail this).elim
        | succ m => have := Outcome.randint this; omega
      · exact hi
    have hlight := Outcome.loop (fun x => x.length = c.popSize ∧ ∀ g ∈ x, Feasible c.maxs g) _
      (fun x a _ y => hinv _ x a y) hbase h1
    exact Outcome.loop (fun x => x.length = c.popSize ∧ ∀ g ∈ x, Feasible c.maxs g) _
      (fun x a _ y => hinv _ x a y) hlight h

/-- A configuration with one vehicle-pair of routes per vehicle. -/
def gaDemo : GaCfg :=
  { fitness := fun g => -((g.sum : ℕ) : ℚ), maxs := [2, 2, 2], popSize := 4, eliteSize := 1
    occurRate := 1 / 2, geneRate := 1 / 2, nPoints := 1 }

/-- The returned world `W_sol` need not be the best one found: it is the world simulated last. -/
theorem C45_returned_false : ∃ S : GA.Result × List Genome,
    Outcome (GA.solve gaDemo [0, 0, 0] 1) S ∧ S.1.sol = some [1, 1, 1] ∧
    S.1.intermid = some [0, 0, 0] ∧ gaDemo.fitness [1, 1, 1] < gaDemo.fitness [0, 0, 0] := by
  have h : ((GA.solve gaDemo [0, 0, 0] 1) (fun _ => 1)).map (fun p => p.1.1) =
      .ok ⟨some [1, 1, 1], some [0, 0, 0]⟩ := by decide +kernel
  cases hs : (GA.solve gaDemo [0, 0, 0] 1) (fun _ => 1) with
  | error e => rw [hs] at h; cases h
  | ok p =>
    rw [hs] at h
    simp only [Except.map, Except.ok.injEq] at h
    refine ⟨p.1, ⟨_, p.2, hs⟩, by rw [h], by rw [h], by decide +kernel⟩

end UX
