import Verif.Proofs.KShortest

/-! # C69: shortest distances, C70: k shortest routes -/

namespace UX
open World

/-- What is assumed of the shortest-path routine: right results for positive edge costs. -/
def GoodSearch (sp : ℕ → (NodeId → NodeId → Option ℚ) → NodeId → NodeId → Option ℚ) : Prop :=
  ∀ n c, (∀ i j q, c i j = some q → 0 ≤ q) → ∃ next, ShortestPaths n c (sp n c) next

/-- The distance from `i` to `k` is the length of a shortest way; it is infinite iff there is no way. -/
theorem C69_distances {W : World} (h : Reachable Any W) (hlen : ∀ l < W.nLinks, 0 < W.L.length l)
    {sp} (hsp : GoodSearch sp) {i k : NodeId} (hi : i < W.nNodes) (hk : k < W.nNodes) :
    (∀ d, W.distancesAll sp i k = some d →
      (∃ p, Way W i k p ∧ costSum W.L.length p = d) ∧ ∀ p, Way W i k p → d ≤ costSum W.L.length p) ∧
    (W.distancesAll sp i k = none ↔ ∀ p, ¬ Way W i k p) := by
  have hf := lengthFold W (List.range W.nLinks)
  have hmem : ∀ i j q, W.lengthMatrix i j = some q →
      ∃ l < W.nLinks, W.L.startN l = i ∧ W.L.endN l = j ∧ W.L.length l = q := by
    intro i j q hq
    obtain ⟨⟨l, l1, l2⟩, -⟩ := (hf i j).2 q hq
    exact ⟨l, List.mem_range.1 l1, l2⟩
  obtain ⟨next, hn⟩ := hsp W.nNodes W.lengthMatrix (fun i j q hq => by
    obtain ⟨l, l1, -, -, l2⟩ := hmem i j q hq
    rw [← l2]; exact (hlen l l1).le)
  have := hn.ways (f := W.L.length) hlen h.inv.s.ends_lt hmem ?_ hi hk
  · refine ⟨this.1, this.2, fun hno => ?_⟩
    cases hd : W.distancesAll sp i k with
    | none => rfl
    | some d =>
      obtain ⟨⟨p, hp, -⟩, -⟩ := this.1 d hd
      exact absurd hp (hno p)
  · intro l hl
    cases hc : W.lengthMatrix (W.L.startN l) (W.L.endN l) with
    | none => exact absurd ⟨rfl, rfl⟩ ((hf _ _).1 hc l (List.mem_range.2 hl))
    | some q => exact ⟨q, rfl, ((hf _ _).2 q hc).2 l (List.mem_range.2 hl) rfl rfl⟩

/-- Two links in a row: lengths of the only way and of its part, none backwards. -/
example : obs (runCmds demoCfg (fun _ => 0) (demo1 0)) (fun W => decide (W.lengthMatrix 0 1 = some 200 ∧
    W.lengthMatrix 1 2 = some 200 ∧ W.lengthMatrix 0 2 = none ∧ ∀ l < W.nLinks, 0 < W.L.length l)) = true := by
  decide +kernel

/-- Of two parallel links the shorter one counts. -/
example : obs (runCmds demoCfg (fun _ => 0) (parallelDemo 0)) (fun W =>
    decide (W.lengthMatrix 0 1 = some 200 ∧ W.lengthMatrix 1 0 = none)) = true := by
  decide +kernel

/-- A link of length 0 is lost in the sparse matrix: its end is reported as unreachable. -/
theorem C69_zero_false : ∃ W, Reachable Any W ∧ Way W 0 1 [0] ∧ 1 < W.nNodes ∧
    ∀ sp, GoodSearch sp → W.distancesAll sp 0 1 = none := by
  have h : obs (runCmds demoCfg (fun _ => 0) [.node { name := "a" }, .node { name := "b" },
      .link { startN := .obj 0, endN := .obj 1, length := 0 }]) (fun W => decide (W.nNodes = 2 ∧ W.nLinks = 1 ∧
        W.L.startN 0 = 0 ∧ W.L.endN 0 = 1 ∧ W.L.length 0 = 0)) = true := by decide +kernel
  obtain ⟨W, h1, h2⟩ := obs_ok h
  obtain ⟨a1, a2, a3, a4, a5⟩ := of_decide_eq_true h2
  refine ⟨W, runCmds_reachable h1, way_cons.2 ⟨by rw [a2]; decide, a3, way_nil.2 a4⟩, by rw [a1]; decide, ?_⟩
  intro sp hsp
  have hm : ∀ i j q, W.lengthMatrix i j = some q → q = 0 := by
    intro i j q hq
    obtain ⟨⟨l, l1, l2, l3, l4⟩, -⟩ := (lengthFold W (List.range W.nLinks) i j).2 q hq
    rw [a2, List.mem_range] at l1
    have : l = 0 := Nat.lt_one_iff.1 l1
    subst this
    rw [← l4, a5]
  obtain ⟨next, hn⟩ := hsp W.nNodes W.lengthMatrix (fun i j q hq => (hm i j q hq).ge)
  refine (hn.apart 0 1 (by rw [a1]; decide) (by rw [a1]; decide) ?_).1
  intro hj
  rcases hj.cases_head with e | ⟨j, ⟨-, -, q, e1, e2⟩, -⟩
  · exact absurd e (by decide)
  · exact e2 (hm _ _ _ e1)

/-! ## C70 -/

/-- In a network without parallel links the result lists at most `k` different simple routes from
source to target with their costs, cheapest first, and every simple route that is not listed costs at
least as much as each listed one, and then there are `k` of them.

Partial: in networks with parallel links this is false (`C70_false`). -/
theorem C70_routes_partial {W : World} (hW : NoParallel W) {ksp} {cost : LinkId → ℚ}
    {source target : Ref} {s t : NodeId} (hs : W.getNode source = .ok s) (ht : W.getNode target = .ok t)
    (hksp : ∀ ps, ksp (W.graphOf cost) s t = some ps → AllSimplePaths (W.graphOf cost) s t ps)
    {k : ℕ} {rs : List (List LinkId)} {cs : List ℚ} (h : W.kShortest ksp cost source target k = .ok (rs, cs)) :
    rs.length ≤ k ∧ cs = rs.map (costSum cost) ∧ cs.Pairwise (· ≤ ·) ∧ rs.Nodup ∧
    (∀ r ∈ rs, Way W s t r ∧ (stops W s r).Nodup) ∧
    ∀ r, Way W s t r → (stops W s r).Nodup → r ∈ rs ∨ (rs.length = k ∧ ∀ r' ∈ rs, costSum cost r' ≤ costSum cost r) := by
  unfold kShortest at h
  simp only [hs, ht] at h
  change (match ksp (W.graphOf cost) s t with | none => _ | some ps => _) = _ at h
  split at h
  · cases h
  · rename_i ps hps
    have hA := hksp ps hps
    simp only [Except.ok.injEq, Prod.mk.injEq] at h
    obtain ⟨rfl, rfl⟩ := h
    have hin : ∀ p ∈ ps.take k, SimplePath (W.graphOf cost) s t p := fun p hp => (hA.mem p).1 (List.mem_of_mem_take hp)
    have hw : ∀ p, SimplePath (W.graphOf cost) s t p → Way W s t (W.routeOf p) ∧ stops W s (W.routeOf p) = p ∧
        costSum cost (W.routeOf p) = edgeSum (W.graphOf cost) p := by
      intro p hp
      rw [routeOf_eq W hp.simple]
      exact linksAlong_way hW cost p s t hp.first hp.last hp.edges
    have hcs : (ps.take k).map (pathWeight (W.graphOf cost)) = ((ps.take k).map W.routeOf).map (costSum cost) := by
      rw [List.map_map]
      refine List.map_congr_left fun p hp => ?_
      rw [Function.comp, (hw p (hin p hp)).2.2, pathWeight_eq]
    refine ⟨by rw [List.length_map, List.length_take]; omega, hcs, ?_, ?_, ?_, ?_⟩
    · rw [List.pairwise_map]
      simp only [pathWeight_eq]
      exact hA.sorted.sublist (List.take_sublist _ _)
    · refine List.Nodup.map_on ?_ (hA.once.sublist (List.take_sublist _ _))
      intro p hp q hq e
      rw [← (hw p (hin p hp)).2.1, ← (hw q (hin q hq)).2.1, e]
    · intro r hr
      obtain ⟨p, hp, rfl⟩ := List.mem_map.1 hr
      obtain ⟨g1, g2, g3⟩ := hw p (hin p hp)
      exact ⟨g1, by rw [g2]; exact (hin p hp).simple⟩
    · intro r hr hnd
      obtain ⟨p1, p2, p3, p4⟩ := way_path hW cost r s t hr
      have hsp : SimplePath (W.graphOf cost) s t (stops W s r) := ⟨p1, p2, p3, hnd⟩
      have hroute : W.routeOf (stops W s r) = r := by rw [routeOf_eq W hnd, p4]
      have hmem := (hA.mem _).2 hsp
      rw [← List.take_append_drop k ps, List.mem_append] at hmem
      rcases hmem with hm | hm
      · exact .inl (List.mem_map.2 ⟨_, hm, hroute⟩)
      · right
        have hlen : k < ps.length := by
          by_contra hc
          rw [List.drop_eq_nil_of_le (by omega)] at hm
          cases hm
        refine ⟨by rw [List.length_map, List.length_take]; omega, ?_⟩
        intro r' hr'
        obtain ⟨p, hp, rfl⟩ := List.mem_map.1 hr'
        rw [(hw p (hin p hp)).2.2, ← hroute, (hw _ hsp).2.2]
        have hpw := hA.sorted
        rw [← List.take_append_drop k ps, List.pairwise_append] at hpw
        exact hpw.2.2 p hp _ hm

/-- A network `a → b`, `a → c → b` of 200 m links. -/
def triangle : List Cmd :=
  [.node { name := "a" }, .node { name := "b" }, .node { name := "c" },
   .link { startN := .obj 0, endN := .obj 1, length := 200 },
   .link { startN := .obj 0, endN := .obj 2, length := 200 },
   .link { startN := .obj 2, endN := .obj 1, length := 200 }]

set_option maxRecDepth 100000 in
/-- The hypotheses are met, by a routine that is right for all graphs: two routes of 10 s and 20 s. -/
example : obs (runCmds demoCfg (fun _ => 0) triangle) (fun W => decide (W.nNodes = 3 ∧
    (∀ l < W.nLinks, ∀ k < W.nLinks, W.L.startN l = W.L.startN k → W.L.endN l = W.L.endN k → l = k)) &&
    match W.kShortest (fun g s t => some (refPaths 3 g s t)) (fun l => W.L.length l / W.L.u l) (.name "a") (.obj 1) 5 with
    | .ok r => decide (r = ([[0], [1, 2]], [10, 20]))
    | .error _ => false) = true := by
  decide +kernel

example {W : World} (h : Reachable Any W) (cost : LinkId → ℚ) {s : NodeId} (hs : s < W.nNodes) (t : NodeId) :
    AllSimplePaths (W.graphOf cost) s t (refPaths W.nNodes (W.graphOf cost) s t) := by
  refine refPaths_ok (fun i j hij => ?_) hs t
  obtain ⟨q, hq⟩ := Option.ne_none_iff_exists'.1 hij
  obtain ⟨l, l1, -, rfl, -⟩ := (graphOf_iff W cost i j q).1 hq
  exact (h.inv.s.ends_lt l l1.1).2

set_option maxRecDepth 100000 in
/-- With two parallel links of 10 s and 20 s the only "shortest route" consists of both links, which
is not a route, and its cost is that of the slower one. -/
theorem C70_false : ∃ (W : World) (ksp : _), Reachable Any W ∧
    (∀ s t, s < W.nNodes → ∀ ps, ksp (W.graphOf W.linkTime) s t = some ps →
      AllSimplePaths (W.graphOf W.linkTime) s t ps) ∧
    W.kShortest ksp W.linkTime (.name "a") (.name "b") 1 = .ok ([[0, 1]], [20]) ∧
    ¬ Way W 0 1 [0, 1] ∧ Way W 0 1 [0] ∧ costSum W.linkTime [0] = 10 := by
  have h : obs (runCmds demoCfg (fun _ => 0) (parallelDemo 0)) (fun W => decide (W.nNodes = 2 ∧ W.nLinks = 2 ∧
      W.L.startN 0 = 0 ∧ W.L.startN 1 = 0 ∧ W.L.endN 0 = 1 ∧ W.L.endN 1 = 1 ∧ W.linkTime 0 = 10) &&
      match W.kShortest (fun g s t => some (refPaths 2 g s t)) W.linkTime (.name "a") (.name "b") 1 with
      | .ok r => decide (r = ([[0, 1]], [20]))
      | .error _ => false) = true := by decide +kernel
  obtain ⟨W, h1, h2⟩ := obs_ok h
  rw [Bool.and_eq_true, decide_eq_true_eq] at h2
  obtain ⟨⟨a1, a2, a3, a4, a5, a6, a7⟩, h3⟩ := h2
  have hr := runCmds_reachable h1
  refine ⟨W, fun g s t => some (refPaths 2 g s t), hr, ?_, ?_, ?_, ?_, ?_⟩
  · intro s t hs ps hps
    rw [Option.some.injEq] at hps
    subst hps
    refine refPaths_ok (fun i j hij => ?_) (by rw [← a1]; exact hs) t
    obtain ⟨q, hq⟩ := Option.ne_none_iff_exists'.1 hij
    obtain ⟨l, l1, -, rfl, -⟩ := (graphOf_iff W _ i j q).1 hq
    rw [← a1]
    exact (hr.inv.s.ends_lt l l1.1).2
  · split at h3
    · rename_i r hr'
      rw [hr', of_decide_eq_true h3]
    · cases h3
  · intro hw
    obtain ⟨-, -, hw⟩ := way_cons.1 hw
    obtain ⟨-, e, -⟩ := way_cons.1 hw
    rw [a4, a5] at e
    exact absurd e (by decide)
  · exact way_cons.2 ⟨by rw [a2]; decide, a3, way_nil.2 a5⟩
  · simp [costSum, a7]

end UX
