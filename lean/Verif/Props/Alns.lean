import Verif.Proofs.Alns

/-!
# Claims about the adaptive large neighbourhood search (C46)
-/

namespace UX
open ALNS

/-- What `init_alns` guarantees about the parameters. -/
structure AlnsOK (c : AlnsCfg) : Prop where
  kMin : 1 ≤ c.kMin
  kMax : c.kMin ≤ c.kMax
  domains : ∀ d ∈ c.domains, d ≠ []

/-- The state returned by `init_alns`: valid sizes and domains; the given solution is current and best,
with its own value. -/
theorem C46_init (c0 : AlnsCfg) (x : Vec) (kMin : Option ℕ) (kMax trials : ℕ)
    (p : AlnsCfg × AlnsState) (h : Outcome (init c0 x kMin kMax trials) p) :
    AlnsOK p.1 ∧ p.1.maximize = c0.maximize ∧ p.1.obj = c0.obj ∧ p.1.domains = c0.domains ∧
    p.1.kMax ≤ max 1 x.length ∧
    p.2.xCur = x ∧ p.2.xBest = x ∧ p.2.cur = (if c0.maximize then -c0.obj 0 x else c0.obj 0 x) ∧
    p.2.best = p.2.cur ∧ p.2.it = 0 ∧ p.2.nEval = trials + 1 ∧
    (∀ m, 0 < p.2.dWeight m) ∧ ∀ m, 0 < p.2.rWeight m := by
  unfold ALNS.init at h
  dsimp only at h
  split at h
  · exact (Outcome.fail h).elim
  · next hv =>
    obtain ⟨n, hn, h⟩ := Outcome.bind h
    cases Outcome.pure h
    push Not at hv
    have hcount : ∀ (k m n : ℕ), Outcome (RandM.times (trial (clampSizes c0 x.length kMin kMax) x) k m) n →
        n = m + k := by
      intro k
      induction k with
      | zero => intro m n h; have := Outcome.pure h; omega
      | succ k ih =>
        intro m n h
        obtain ⟨m', hm, h⟩ := Outcome.bind h
        have := ih m' n h
        obtain ⟨_, -, hm⟩ := Outcome.bind hm
        obtain ⟨_, -, hm⟩ := Outcome.bind hm
        obtain ⟨_, -, hm⟩ := Outcome.bind hm
        have := Outcome.pure hm
        omega
    have hn := hcount _ _ _ hn
    refine ⟨⟨?_, ?_, fun d hd hne => ?_⟩, rfl, rfl, rfl, ?_, rfl, rfl, rfl, rfl, rfl, ?_, ?_, ?_⟩
    · simp only [clampSizes]; omega
    · simp only [clampSizes]; omega
    · refine absurd ?_ hv.1
      rw [List.any_eq_true]
      exact ⟨d, hd, by simp [hne]⟩
    · simp only [clampSizes]
      omega
    · dsimp only; omega
    · intro m; cases m <;> norm_num [dInit]
    · intro m; norm_num

/-- One step evaluates exactly one candidate, which differs from the current solution in at most
`k_max` positions, all with values of their domains. The candidate becomes current, or the current
solution stays; it stays although something was changed only if the candidate is worse and the option
`always_accept` is off. -/
theorem C46_step (c : AlnsCfg) (hc : AlnsOK c) (s t : AlnsState) (h : Outcome (autoStep c s) t) :
    ∃ (x : Vec) (removed changed : List ℕ), removed.length ≤ c.kMax ∧ x.length = s.xCur.length ∧
      (∀ i : ℕ, i ∉ removed → x[i]? = s.xCur[i]?) ∧
      (∀ i ∈ removed, ∃ v d, c.domains[i]? = some d ∧ v ∈ d ∧ x[i]? = some (some v)) ∧
      (∀ j ∈ changed, j ∈ removed) ∧
      t.nEval = s.nEval + 1 ∧
      ((t.xCur = x ∧ t.cur = (if c.maximize then -c.obj s.nEval x else c.obj s.nEval x) ∧
          changed ≠ []) ∨
        (t.xCur = s.xCur ∧ t.cur = s.cur ∧ (changed ≠ [] → c.alwaysAccept = false ∧
          s.cur < (if c.maximize then -c.obj s.nEval x else c.obj s.nEval x)))) := by
  have hs := autoStep_spec hc.kMin hc.kMax hc.domains h
  obtain ⟨x, rem, ch, h1, h2, h3, h4⟩ := hs.cand
  exact ⟨x, rem, ch, h1, h2.length, h2.other, h2.value, h3, hs.nEval, h4⟩

/-- The best value never increases. -/
theorem C46_monotone (c : AlnsCfg) (hc : AlnsOK c) (s t : AlnsState) (h : Outcome (autoStep c s) t) :
    t.best ≤ s.best := by
  have hs := autoStep_spec hc.kMin hc.kMax hc.domains h
  rcases lt_or_ge t.cur s.best with hlt | hge
  · rw [(hs.better hlt).1]; exact hlt.le
  · rw [(hs.same hge).1]

/-- Along every search that starts as `init_alns` leaves it, the best value is the least value of all
current solutions so far (the initial one and the accepted ones), and the stored best solution is one
with that value. -/
theorem C46_best (c : AlnsCfg) (hc : AlnsOK c) (ss : List AlnsState) (hss : SearchPath c ss)
    (s0 : AlnsState) (h0 : ss[0]? = some s0) (hb : s0.best = s0.cur) (hx : s0.xBest = s0.xCur)
    (k : ℕ) (s : AlnsState) (hk : ss[k]? = some s) :
    (∀ (j : ℕ) (t : AlnsState), j ≤ k → ss[j]? = some t → s.best ≤ t.cur) ∧
    ∃ (j : ℕ) (t : AlnsState), j ≤ k ∧ ss[j]? = some t ∧ s.best = t.cur ∧ s.xBest = t.xCur := by
  induction k generalizing s with
  | zero =>
    rw [h0] at hk
    cases hk
    refine ⟨fun j t hj ht => ?_, 0, s0, le_rfl, h0, hb, hx⟩
    obtain rfl : j = 0 := by omega
    rw [h0] at ht; cases ht
    exact hb.le
  | succ k ih =>
    have hlen : k < ss.length := by
      have := (List.getElem?_eq_some_iff.mp hk).1; omega
    have ek := List.getElem?_eq_getElem hlen
    obtain ⟨i1, j, t, hj, ht, e1, e2⟩ := ih _ ek
    have hs := autoStep_spec hc.kMin hc.kMax hc.domains (hss k _ s ek hk)
    rcases lt_or_ge s.cur ss[k].best with hlt | hge
    · obtain ⟨b1, b2⟩ := hs.better hlt
      refine ⟨fun j' t' hj' ht' => ?_, k + 1, s, le_rfl, hk, b1, b2⟩
      rw [b1]
      rcases Nat.lt_or_ge j' (k + 1) with hl | hg
      · exact hlt.le.trans (i1 j' t' (by omega) ht')
      · obtain rfl : j' = k + 1 := by omega
        rw [hk] at ht'; cases ht'; exact le_rfl
    · obtain ⟨b1, b2⟩ := hs.same hge
      refine ⟨fun j' t' hj' ht' => ?_, j, t, by omega, ht, by rw [b1, e1], by rw [b2, e2]⟩
      rw [b1]
      rcases Nat.lt_or_ge j' (k + 1) with hl | hg
      · exact i1 j' t' (by omega) ht'
      · obtain rfl : j' = k + 1 := by omega
        rw [hk] at ht'; cases ht'; exact hge

/-- Every current solution has the value the objective gave for it at one of its evaluations. -/
theorem C46_value (c : AlnsCfg) (hc : AlnsOK c) (ss : List AlnsState) (hss : SearchPath c ss)
    (s0 : AlnsState) (h0 : ss[0]? = some s0)
    (hv : ∃ e < s0.nEval, s0.cur = (if c.maximize then -c.obj e s0.xCur else c.obj e s0.xCur))
    (k : ℕ) (s : AlnsState) (hk : ss[k]? = some s) :
    ∃ e < s.nEval, s.cur = if c.maximize then -c.obj e s.xCur else c.obj e s.xCur := by
  induction k generalizing s with
  | zero => rw [h0] at hk; cases hk; exact hv
  | succ k ih =>
    have hlen : k < ss.length := by
      have := (List.getElem?_eq_some_iff.mp hk).1; omega
    have ek := List.getElem?_eq_getElem hlen
    obtain ⟨e, he, e'⟩ := ih _ ek
    obtain ⟨x, _, _, -, -, -, -, -, hn, h⟩ := C46_step c hc _ s (hss k _ s ek hk)
    rcases h with ⟨h1, h2, -⟩ | ⟨h1, h2, -⟩
    · exact ⟨ss[k].nEval, by omega, by rw [h1]; exact h2⟩
    · exact ⟨e, by omega, by rw [h1, h2]; exact e'⟩

/-- If the initial solution is in the domains, so are all current and best solutions. -/
theorem C46_domains (c : AlnsCfg) (hc : AlnsOK c) (ss : List AlnsState) (hss : SearchPath c ss)
    (s0 : AlnsState) (h0 : ss[0]? = some s0) (hcur : InDomains c.domains s0.xCur)
    (hbest : InDomains c.domains s0.xBest) (k : ℕ) (s : AlnsState) (hk : ss[k]? = some s) :
    InDomains c.domains s.xCur ∧ InDomains c.domains s.xBest := by
  induction k generalizing s with
  | zero => rw [h0] at hk; cases hk; exact ⟨hcur, hbest⟩
  | succ k ih =>
    have hlen : k < ss.length := by
      have := (List.getElem?_eq_some_iff.mp hk).1; omega
    have ek := List.getElem?_eq_getElem hlen
    obtain ⟨i1, i2⟩ := ih _ ek
    have hs := autoStep_spec hc.kMin hc.kMax hc.domains (hss k _ s ek hk)
    obtain ⟨x, rem, ch, -, h2, -, h4⟩ := hs.cand
    have hx : InDomains c.domains s.xCur := by
      rcases h4 with ⟨e, -⟩ | ⟨e, -⟩
      · rw [e]; exact h2.inDomains i1
      · rw [e]; exact i1
    refine ⟨hx, ?_⟩
    rcases lt_or_ge s.cur ss[k].best with hlt | hge
    · rw [(hs.better hlt).2]; exact hx
    · rw [(hs.same hge).2]; exact i2

theorem times_path (c : AlnsCfg) : ∀ (n : ℕ) (s t : AlnsState), Outcome (RandM.times (autoStep c) n s) t →
    ∃ ss : List AlnsState, ss.length = n + 1 ∧ ss[0]? = some s ∧ ss[n]? = some t ∧ SearchPath c ss
  | 0, s, t, h => by
    cases Outcome.pure h
    exact ⟨[s], rfl, rfl, rfl, fun k a b _ hb => by simp at hb⟩
  | n + 1, s, t, h => by
    obtain ⟨m, hm, h⟩ := Outcome.bind h
    obtain ⟨ss, hl, h0, hn, hp⟩ := times_path c n m t h
    refine ⟨s :: ss, by simp [hl], rfl, by simpa using hn, fun k a b ha hb => ?_⟩
    cases k with
    | zero =>
      simp only [List.getElem?_cons_zero, Option.some.injEq] at ha
      simp only [zero_add, List.getElem?_cons_succ, h0, Option.some.injEq] at hb
      rw [← ha, ← hb]; exact hm
    | succ k => exact hp k a b (by simpa using ha) (by simpa using hb)

/-- A complete run: the returned vector is the current solution of some moment of the run; the returned
value is the one the objective gave for it, and no current solution of the run had a better one. If the
initial vector is in the domains, so is the returned one. -/
theorem C46_run (c0 : AlnsCfg) (x : Vec) (kMin : Option ℕ) (kMax trials n : ℕ)
    (R : AlnsCfg × AlnsState × Vec × ℚ) (h : Outcome (run c0 x kMin kMax trials n) R) :
    ∃ ss : List AlnsState, ss.length = n + 1 ∧ SearchPath R.1 ss ∧ ss[n]? = some R.2.1 ∧
      (∃ s0, ss[0]? = some s0 ∧ s0.xCur = x) ∧
      (∃ t ∈ ss, R.2.2.1 = t.xCur ∧ ∃ e, R.2.2.2 = c0.obj e t.xCur) ∧
      (∀ t ∈ ss, ∃ e, t.cur = (if c0.maximize then -c0.obj e t.xCur else c0.obj e t.xCur) ∧
        if c0.maximize then c0.obj e t.xCur ≤ R.2.2.2 else R.2.2.2 ≤ c0.obj e t.xCur) ∧
      (InDomains c0.domains x → InDomains c0.domains R.2.2.1) := by
  obtain ⟨p, hp, h⟩ := Outcome.bind h
  obtain ⟨s, hs, h⟩ := Outcome.bind h
  cases Outcome.pure h
  obtain ⟨hok, em, eo, ed, -, ex, eb, ec, ebb, -, en, -⟩ := C46_init c0 x kMin kMax trials p hp
  obtain ⟨ss, hl, h0, hn, hpath⟩ := times_path p.1 n p.2 s hs
  have hval := C46_value p.1 hok ss hpath p.2 h0 ⟨0, by omega, by rw [ec, ex, em, eo]⟩
  obtain ⟨b1, j, t, hj, ht, e1, e2⟩ :=
    C46_best p.1 hok ss hpath p.2 h0 ebb (by rw [eb, ex]) n s hn
  refine ⟨ss, hl, hpath, hn, ⟨p.2, h0, ex⟩, ⟨t, List.mem_of_getElem? ht, e2, ?_⟩, ?_, ?_⟩
  · obtain ⟨e, -, he⟩ := hval j t ht
    refine ⟨e, ?_⟩
    dsimp only
    rw [e1, he, em, eo]
    split <;> simp
  · intro u hu
    obtain ⟨i, hi, rfl⟩ := List.getElem_of_mem hu
    obtain ⟨e, -, he⟩ := hval i _ (List.getElem?_eq_getElem hi)
    have hle := b1 i _ (by omega) (List.getElem?_eq_getElem hi)
    rw [em, eo] at he
    refine ⟨e, he, ?_⟩
    dsimp only
    rw [em]
    split
    · next hm => rw [if_pos hm] at he; linarith
    · next hm => rw [if_neg hm] at he; linarith
  · intro hd
    rw [← ed] at hd ⊢
    exact (C46_domains p.1 hok ss hpath p.2 h0 (by rw [ex]; exact hd) (by rw [eb]; exact hd) n s hn).2

/-- Random repair chooses a new value at every removed position whose domain offers one. -/
theorem C46_repair_random (c : AlnsCfg) (base px : Vec) (removed : List ℕ) (q : Vec × List ℕ)
    (hd : Destroyed base removed px) (h : Outcome (repairRandom c base px removed) q) :
    q.2 = removed ∧ ∀ i ∈ removed, ∀ d, c.domains[i]? = some d → 1 < d.length →
      (∃ w ∈ d, base[i]? ≠ some (some w)) → q.1[i]? ≠ base[i]? :=
  ⟨(repairRandom_spec hd h).2.1, (repairRandom_spec hd h).2.2⟩

/-- Greedy repair chooses a value of least cost at every removed position, and reports a change whenever
the vector changed. -/
theorem C46_repair_greedy (c : AlnsCfg) (hc : AlnsOK c) (base : Vec) (removed : List ℕ)
    (q : Vec × List ℕ) (h : Outcome (repairMinCost c base removed) q) :
    (∀ i ∈ removed, ∃ v d, c.domains[i]? = some d ∧ v ∈ d ∧ q.1[i]? = some (some v) ∧
      ∀ w ∈ d, c.cost i v ≤ c.cost i w) ∧ (q.1 ≠ base → q.2 ≠ []) := by
  obtain ⟨h1, -, h3, h4⟩ := repairMinCost_spec hc.domains h
  refine ⟨fun i hi => ?_, h4⟩
  obtain ⟨v, d, e1, e2, e3⟩ := h1.value i hi
  exact ⟨v, d, e1, e2, e3, h3 i hi d v e1 e3⟩

/-- Random destruction removes between `k_min` and `k_cur` different positions. -/
theorem C46_destroy_random (c : AlnsCfg) (s : AlnsState) (x : Vec) (p : List ℕ × Vec)
    (h : Outcome (destroyRandom c s x) p) :
    c.kMin ≤ p.1.length ∧ p.1.length ≤ s.kCur ∧ p.1.Nodup ∧ (∀ i ∈ p.1, i < x.length) ∧
    (∀ i ∈ p.1, p.2[i]? = some none) ∧ ∀ i : ℕ, i ∉ p.1 → p.2[i]? = x[i]? := by
  obtain ⟨h1, h2, h3, h4⟩ := destroyRandom_spec h
  exact ⟨h2, h3, h4, h1.valid, h1.blanked, h1.other⟩

/-- Segment destruction removes at least one and at most `k_cur` different positions of a vector with
at least two entries. -/
theorem C46_destroy_segment (c : AlnsCfg) (s : AlnsState) (x : Vec) (p : List ℕ × Vec)
    (hk : 1 ≤ s.kCur) (h : Outcome (destroySegment c s x) p) :
    p.1.length ≤ s.kCur ∧ p.1.Nodup ∧ (2 ≤ x.length → 1 ≤ p.1.length) ∧ (∀ i ∈ p.1, i < x.length) := by
  obtain ⟨h1, h2, h3, h4⟩ := destroySegment_spec h hk
  exact ⟨h2, h3, h4, h1.valid⟩

/-- The adaptive weights stay positive, so that every operator can always be chosen. -/
theorem C46_weights (c : AlnsCfg) (h0 : 0 ≤ c.eta) (h1 : c.eta ≤ 1) (s t : AlnsState)
    (hd : ∀ m, 0 < s.dWeight m) (hr : ∀ m, 0 < s.rWeight m) (h : Outcome (autoStep c s) t) :
    (∀ m, 0 < t.dWeight m) ∧ ∀ m, 0 < t.rWeight m := by
  unfold autoStep at h
  dsimp only at h
  obtain ⟨d, -, h⟩ := Outcome.bind h
  obtain ⟨r, -, h⟩ := Outcome.bind h
  obtain ⟨p, -, h⟩ := Outcome.bind h
  obtain ⟨q, -, h⟩ := Outcome.bind h
  obtain ⟨ok, -, h⟩ := Outcome.bind h
  rw [← Outcome.pure h]
  exact finish_weights h0 h1 (s := { s with
    kCur := sizeNow c s.it, dUses := upd s.dUses d (s.dUses d + 1)
    rUses := upd s.rUses r (s.rUses r + 1), nEval := s.nEval + 1 }) hd hr d r _ _ _ _

/-- The world kept by `SolverDSO_ALNS` has the least objective of all evaluations, accepted or not. -/
theorem C46_solver (evs : List (Vec × ℚ)) (hne : evs ≠ []) :
    ∃ p, bestEvaluated evs = some p ∧ p ∈ evs ∧ ∀ q ∈ evs, p.2 ≤ q.2 := by
  have key : ∀ (l : List (Vec × ℚ)) (b : Vec × ℚ), ∃ p,
      l.foldl (fun b p => match b with
        | none => some p
        | some q => if p.2 < q.2 then some p else some q) (some b) = some p ∧ p ∈ b :: l ∧
        ∀ q ∈ b :: l, p.2 ≤ q.2 := by
    intro l
    induction l with
    | nil => intro b; exact ⟨b, rfl, by simp, by simp⟩
    | cons a t ih =>
      intro b
      simp only [List.foldl_cons]
      by_cases hlt : a.2 < b.2
      · rw [if_pos hlt]
        obtain ⟨p, e, hm, hle⟩ := ih a
        refine ⟨p, e, List.mem_cons_of_mem _ hm, fun q hq => ?_⟩
        rcases List.mem_cons.mp hq with rfl | hq
        · exact (hle a (List.mem_cons_self ..)).trans hlt.le
        · exact hle q hq
      · rw [if_neg hlt]
        obtain ⟨p, e, hm, hle⟩ := ih b
        refine ⟨p, e, ?_, fun q hq => ?_⟩
        · rcases List.mem_cons.mp hm with rfl | hm
          · exact List.mem_cons_self ..
          · exact List.mem_cons_of_mem _ (List.mem_cons_of_mem _ hm)
        · rcases List.mem_cons.mp hq with rfl | hq
          · exact hle _ (List.mem_cons_self ..)
          · rcases List.mem_cons.mp hq with rfl | hq
            · exact (hle b (List.mem_cons_self ..)).trans (not_lt.mp hlt)
            · exact hle q (List.mem_cons_of_mem _ hq)
  cases evs with
  | nil => exact absurd rfl hne
  | cons a t => exact key t a

/-! ## What does not hold for `SolverDSO_ALNS` -/

/-- Without an initial solution the start vector can be outside the domains. -/
theorem C46_start_false : ∃ x : Vec, Outcome (solverInit [[0, 1]]) x ∧ ¬ InDomains [[0, 1]] x := by
  refine ⟨[some 2], ⟨fun _ => 2, _, rfl⟩, fun h => ?_⟩
  obtain ⟨v, hv, e⟩ := h.2 0 (some 2) [0, 1] rfl rfl
  cases e
  simp at hv

/-- The documented objective adds the simulation length for every unfinished trip; the code subtracts
it, so that a run that leaves trips unfinished is preferred. -/
theorem C46_objective_false : ∃ (A B : Analyzer) (tmax : ℚ),
    A.tripAll = A.tripCompleted ∧ B.tripAll = A.tripAll ∧ B.tripCompleted < B.tripAll ∧
    A.totalTravelTime < B.totalTravelTime ∧ objective B tmax < objective A tmax ∧
    gaFitness B tmax < gaFitness A tmax :=
  ⟨{ Analyzer.new with tripAll := 10, tripCompleted := 10, totalTravelTime := 500 },
   { Analyzer.new with tripAll := 10, tripCompleted := 5, totalTravelTime := 600 }, 1000,
   rfl, rfl, by decide, by norm_num, by norm_num [objective], by norm_num [gaFitness]⟩

/-- A vehicle of the initial solution that did not follow a route of its set should be assigned the
shortest one; it gets the last one. -/
theorem C46_shortest_false : initialGene [(false, 5), (false, 9)] = 1 ∧ (5 : ℚ) < 9 :=
  ⟨rfl, by norm_num⟩

/-- … always the last one. -/
theorem C46_last_route (rs : List (Bool × ℚ)) (hne : rs ≠ []) (h : ∀ r ∈ rs, r.1 = false) :
    initialGene rs = rs.length - 1 := by
  have key : ∀ (rs : List (Bool × ℚ)) (j m : ℕ), (∀ r ∈ rs, r.1 = false) →
      recoverRoute rs j m = (none, if rs = [] then m else j + rs.length - 1) := by
    intro rs
    induction rs with
    | nil => intro j m _; simp [recoverRoute]
    | cons r t ih =>
      intro j m h
      obtain ⟨b, q⟩ := r
      have hb : b = false := h (b, q) (List.mem_cons_self ..)
      subst hb
      simp only [recoverRoute, Bool.false_eq_true, if_false]
      rw [ih (j + 1) j (fun r hr => h r (List.mem_cons_of_mem _ hr))]
      cases t with
      | nil => simp
      | cons a t => simp; omega
  unfold initialGene
  rw [key rs 0 0 h, if_neg hne]
  simp

/-- A concrete search: two positions with two values each, the objective counts the ones. -/
def alnsDemo : AlnsCfg :=
  { maximize := false, obj := fun _ x => ((x.filter (· = some 1)).length : ℚ)
    domains := [[0, 1], [0, 1]], destroySet := [.random, .segment], repairSet := [.random]
    kMin := 1, kMax := 1, alwaysAccept := false, ratio := fun _ => 1, boltz := fun _ _ => 1 / 2
    segLen := 2, eta := 1 / 5, rewardBest := 5, rewardImprove := 2, rewardWorse := 1 / 2
    cost := fun _ _ => 0, pools := [] }

/-- The search starting at `[1, 1]` finds the optimum `[0, 0]`. -/
example : ((run alnsDemo [some 1, some 1] none 1 0 2) (fun i => if i < 6 then 0 else 1)).map
    (fun p => p.1.2.2) = .ok ([some 0, some 0], 0) := by decide +kernel

end UX
