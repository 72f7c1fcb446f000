import Verif.Proofs.RandomRoutes

/-! # C71: random routes -/

namespace UX
open World

/-- For a finalized world with at least one link, the search ends without an exception whatever
numbers are drawn. The keys are exactly the pairs of nodes that are connected, each key once. Every
entry has at most `k` routes, all different, and each is a route of links from origin to destination. -/
theorem C71_routes {W : World} (hf : W.finalized = true) (hlink : 0 < W.nLinks) (k : ℕ) {ap}
    {rnd : ℕ → LinkId → ℚ}
    (hap : ∀ it, AllPairs (W.graphOf (W.randomCost rnd it)) (ap (W.graphOf (W.randomCost rnd it)))) :
    ∃ N : ℕ, ∀ fuel ≥ N, ∃ D, W.randomRoutes k ap rnd fuel = .ok D ∧ D.keys.Nodup ∧
      (∀ y, y ∈ D.keys ↔ Connected W y.1 y.2) ∧
      ∀ s t, (s, t) ∈ D.keys → (D.val (s, t)).length ≤ k ∧ (D.val (s, t)).Nodup ∧ ∀ r ∈ D.val (s, t), Way W s t r := by
  obtain ⟨n, hn⟩ := randomRoutes_ok (k := k) hf hap hlink
  refine ⟨12 * (k * n) + 12, fun fuel hfu => ?_⟩
  rcases hn fuel with ⟨D, h1, h2, h3, -, -⟩ | ⟨-, h⟩
  · exact ⟨D, h1, h2.keys, h3, fun s t _ => ⟨h2.len _, h2.once _, fun r hr => h2.way (s, t) r hr⟩⟩
  · omega

/-- With `k ≥ 1` and without parallel links, the first route of every connected pair is a fastest one
in free flow. How often the loop runs does not matter.

Partial: with parallel links this is false (`C71_parallel_false`). -/
theorem C71_first_partial {W : World} (hf : W.finalized = true) (hW : NoParallel W) {k : ℕ} (hk : 0 < k) {ap}
    {rnd : ℕ → LinkId → ℚ}
    (hap : ∀ it, AllPairs (W.graphOf (W.randomCost rnd it)) (ap (W.graphOf (W.randomCost rnd it))))
    {fuel : ℕ} {D : RouteDict} (h : W.randomRoutes k ap rnd fuel = .ok D) {s t : NodeId} (hst : Connected W s t) :
    ∃ r rest, D.val (s, t) = r :: rest ∧ Way W s t r ∧
      ∀ p, Way W s t p → costSum W.linkTime r ≤ costSum W.linkTime p := by
  have hlink : 0 < W.nLinks := by
    obtain ⟨⟨j, ⟨l, hl, -⟩ | ⟨l, hl, -⟩⟩, -⟩ := hst
    · exact Nat.lt_of_le_of_lt (Nat.zero_le _) hl
    · exact Nat.lt_of_le_of_lt (Nat.zero_le _) hl
  obtain ⟨n, hn⟩ := randomRoutes_ok (k := k) hf hap hlink
  rcases hn fuel with ⟨D', h1, -, -, -, h5⟩ | ⟨h1, -⟩
  · rw [h, Except.ok.injEq] at h1
    subst h1
    obtain ⟨r, rest, r1, r2, r3⟩ := h5 hk s t hst
    refine ⟨r, rest, r1, r2, fun p hp => ?_⟩
    have hc : W.randomCost rnd 0 = W.linkTime := by funext l; rfl
    rw [hc] at r3
    obtain ⟨p1, p2, p3, p4⟩ := way_path hW W.linkTime p s t hp
    refine (r3 _ ⟨p1, p2, p3⟩).trans (le_of_eq ?_)
    rw [← (linksAlong_way hW W.linkTime _ s t p1 p2 p3).2.2, p4]
  · rw [h] at h1; cases h1

/-- Without links the average number of routes is divided by zero. -/
theorem C71_no_links_false : ∃ W, Reachable Any W ∧ W.finalized = true ∧ W.nNodes = 2 ∧ ∀ k ap rnd fuel,
    (∀ it, AllPairs (W.graphOf (W.randomCost rnd it)) (ap (W.graphOf (W.randomCost rnd it)))) →
    W.randomRoutes k ap rnd (fuel + 1) = .error .zeroDivision := by
  have h : obs (runCmds demoCfg (fun _ => 0) [.node { name := "a" }, .node { name := "b" }, .fin (some 300)])
      (fun W => decide (W.nLinks = 0 ∧ W.nNodes = 2 ∧ W.finalized = true)) = true := by decide +kernel
  obtain ⟨W, h1, h2⟩ := obs_ok h
  obtain ⟨a1, a2, a3⟩ := of_decide_eq_true h2
  refine ⟨W, runCmds_reachable h1, a3, a2, fun k ap rnd fuel hap => ?_⟩
  have hA := hap 0
  have : ap (W.graphOf (W.randomCost rnd 0)) = [] := by
    refine List.eq_nil_iff_forall_not_mem.2 fun x hx => ?_
    have := (allPairs_mem hA x.1).1 (List.mem_map.2 ⟨x, hx, rfl⟩)
    obtain ⟨⟨j, ⟨l, hl, -⟩ | ⟨l, hl, -⟩⟩, -⟩ := this
    · rw [a1] at hl; exact Nat.not_lt_zero _ hl
    · rw [a1] at hl; exact Nat.not_lt_zero _ hl
  rw [randomRoutes, randomLoop, this]
  rfl

/-- Paths in a graph with the single edge `0 → 1`. -/
def linePairs : List ((NodeId × NodeId) × List NodeId) := [((0, 0), [0]), ((0, 1), [0, 1]), ((1, 1), [1])]

theorem linePairs_ok {g : NodeId → NodeId → Option ℚ} (hg : ∀ a b, g a b ≠ none ↔ a = 0 ∧ b = 1) :
    AllPairs g linePairs := by
  have hlong : ∀ (p : List NodeId) a b c, ¬ (a :: b :: c :: p).IsChain (fun a b => g a b ≠ none) := by
    intro p a b c h
    rw [List.isChain_cons_cons, List.isChain_cons_cons, hg, hg] at h
    have := h.1.2.symm.trans h.2.1.1
    exact absurd this (by decide)
  refine ⟨by decide, ?_, ?_, ?_⟩
  · intro s t
    have e : (fun a b => g a b ≠ none) = fun a b => a = 0 ∧ b = 1 := by
      funext a b; exact propext (hg a b)
    simp only [hg, e]
    have : ((s, t) ∈ linePairs.map Prod.fst) ↔ (s = 0 ∧ t = 0) ∨ (s = 0 ∧ t = 1) ∨ (s = 1 ∧ t = 1) := by
      simp [linePairs]
    rw [this]
    constructor
    · rintro (⟨rfl, rfl⟩ | ⟨rfl, rfl⟩ | ⟨rfl, rfl⟩)
      · exact ⟨⟨1, .inl ⟨rfl, rfl⟩⟩, .refl⟩
      · exact ⟨⟨1, .inl ⟨rfl, rfl⟩⟩, .single ⟨rfl, rfl⟩⟩
      · exact ⟨⟨0, .inr ⟨rfl, rfl⟩⟩, .refl⟩
    · rintro ⟨⟨j, ⟨rfl, rfl⟩ | ⟨rfl, rfl⟩⟩, h⟩
      · rcases h.cases_head with e | ⟨c, ⟨-, rfl⟩, h2⟩
        · exact .inl ⟨rfl, e.symm⟩
        · rcases h2.cases_head with e | ⟨c, ⟨h3, -⟩, -⟩
          · exact .inr (.inl ⟨rfl, e.symm⟩)
          · exact absurd h3 (by decide)
      · rcases h.cases_head with e | ⟨c, ⟨h3, -⟩, -⟩
        · exact .inr (.inr ⟨rfl, e.symm⟩)
        · exact absurd h3 (by decide)
  · intro s t p hp
    simp only [linePairs, List.mem_cons, Prod.mk.injEq, List.not_mem_nil, or_false] at hp
    rcases hp with ⟨⟨rfl, rfl⟩, rfl⟩ | ⟨⟨rfl, rfl⟩, rfl⟩ | ⟨⟨rfl, rfl⟩, rfl⟩
    · exact ⟨rfl, rfl, .singleton _⟩
    · refine ⟨rfl, rfl, ?_⟩
      rw [List.isChain_cons_cons]
      exact ⟨(hg 0 1).2 ⟨rfl, rfl⟩, .singleton _⟩
    · exact ⟨rfl, rfl, .singleton _⟩
  · intro s t p hp p' ⟨q1, q2, q3⟩
    have : p' = p := by
      cases p' with
      | nil => simp at q1
      | cons a p' =>
        simp only [List.head?_cons, Option.some.injEq] at q1
        subst q1
        simp only [linePairs, List.mem_cons, Prod.mk.injEq, List.not_mem_nil, or_false] at hp
        cases p' with
        | nil =>
          simp only [List.getLast?_singleton, Option.some.injEq] at q2
          subst q2
          rcases hp with ⟨⟨rfl, -⟩, rfl⟩ | ⟨⟨rfl, e⟩, -⟩ | ⟨⟨rfl, -⟩, rfl⟩
          · rfl
          · exact absurd e (by decide)
          · rfl
        | cons b p' =>
          cases p' with
          | cons c p' => exact absurd q3 (hlong _ _ _ _)
          | nil =>
            rw [List.isChain_cons_cons, hg] at q3
            obtain ⟨⟨rfl, rfl⟩, -⟩ := q3
            simp only [List.getLast?_cons_cons, List.getLast?_singleton, Option.some.injEq] at q2
            subst q2
            rcases hp with ⟨⟨-, e⟩, -⟩ | ⟨-, rfl⟩ | ⟨⟨e, -⟩, -⟩
            · exact absurd e (by decide)
            · rfl
            · exact absurd e (by decide)
    rw [this]

set_option maxRecDepth 100000 in
/-- One link (no parallel ones): its route is found, and the empty route from each node to itself.
`linePairs` meets the assumption for this network. -/
example : obs (runCmds demoCfg (fun _ => 0) [.node { name := "a" }, .node { name := "b" },
      .link { startN := .obj 0, endN := .obj 1, length := 200 }, .fin (some 300)]) (fun W =>
      match W.randomRoutes 2 (fun _ => linePairs) (fun _ _ => 50) 20 with
      | .ok D => decide (D.keys = [(0, 0), (0, 1), (1, 1)] ∧ D.val (0, 1) = [[0]] ∧ D.val (0, 0) = [[]] ∧
          W.nLinks = 1 ∧ W.L.startN 0 = 0 ∧ W.L.endN 0 = 1)
      | .error _ => false) = true := by decide +kernel

set_option maxRecDepth 100000 in
/-- With two parallel links of 10 s and 20 s the only route found is the slow one. The example also
shows that the hypotheses can be met. -/
theorem C71_parallel_false : ∃ W ap rnd fuel D, Reachable Any W ∧ W.finalized = true ∧ 0 < W.nLinks ∧
    (∀ it, AllPairs (W.graphOf (W.randomCost rnd it)) (ap (W.graphOf (W.randomCost rnd it)))) ∧
    W.randomRoutes 5 ap rnd fuel = .ok D ∧ D.val (0, 1) = [[1]] ∧ Way W 0 1 [0] ∧
    costSum W.linkTime [0] < costSum W.linkTime [1] := by
  have h : obs (runCmds demoCfg (fun _ => 0) (parallelDemo 0)) (fun W => decide (W.nNodes = 2 ∧ W.nLinks = 2 ∧
      W.L.startN 0 = 0 ∧ W.L.startN 1 = 0 ∧ W.L.endN 0 = 1 ∧ W.L.endN 1 = 1 ∧ W.linkTime 0 = 10 ∧
      W.linkTime 1 = 20 ∧ W.finalized = true) &&
      match W.randomRoutes 5 (fun _ => linePairs) (fun _ _ => 50) 20 with
      | .ok D => decide (D.val (0, 1) = [[1]])
      | .error _ => false) = true := by decide +kernel
  obtain ⟨W, h1, h2⟩ := obs_ok h
  rw [Bool.and_eq_true, decide_eq_true_eq] at h2
  obtain ⟨⟨a1, a2, a3, a4, a5, a6, a7, a8, a9⟩, h3⟩ := h2
  split at h3
  · rename_i D hD
    refine ⟨W, fun _ => linePairs, fun _ _ => 50, 20, D, runCmds_reachable h1, a9, by rw [a2]; decide, ?_, hD,
      of_decide_eq_true h3, way_cons.2 ⟨by rw [a2]; decide, a3, way_nil.2 a5⟩, ?_⟩
    · intro it
      refine linePairs_ok fun a b => ?_
      rw [graphOf_ne]
      constructor
      · rintro ⟨l, l1, l2, l3⟩
        rw [a2] at l1
        have : l = 0 ∨ l = 1 := by omega
        rcases this with rfl | rfl
        · exact ⟨l2.symm.trans a3, l3.symm.trans a5⟩
        · exact ⟨l2.symm.trans a4, l3.symm.trans a6⟩
      · rintro ⟨rfl, rfl⟩
        exact ⟨0, by rw [a2]; decide, a3, a5⟩
    · simp [costSum, a7, a8]; norm_num
  · cases h3

end UX
