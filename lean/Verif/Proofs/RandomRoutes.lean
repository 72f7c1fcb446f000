import Verif.Proofs.KShortest
import Verif.Proofs.Safe
import Mathlib.Data.Finset.Max

/-! The loop of `enumerate_k_random_routes`. -/

namespace UX
open World

theorem pairLink_some (W : World) {a b : NodeId} {l : LinkId} (hl : W.LastOf l) (h1 : W.L.startN l = a)
    (h2 : W.L.endN l = b) : W.pairLink a b = some l := by
  have key : ∀ n : ℕ, l < n → (∀ k, l < k → k < n → W.L.startN k = W.L.startN l → W.L.endN k ≠ W.L.endN l) →
      (List.range n).foldl (fun r l => if W.L.startN l = a ∧ W.L.endN l = b then some l else r) none = some l := by
    intro n
    induction n with
    | zero => intro h; exact absurd h (Nat.not_lt_zero _)
    | succ n ih =>
      intro h hk
      rw [List.range_succ, List.foldl_append]
      simp only [List.foldl_cons, List.foldl_nil]
      by_cases hn : n = l
      · subst hn
        rw [if_pos ⟨h1, h2⟩]
      · have hlt : l < n := Nat.lt_of_le_of_ne (Nat.le_of_lt_succ h) (Ne.symm hn)
        rw [if_neg, ih hlt (fun k k1 k2 => hk k k1 (Nat.lt_succ_of_lt k2))]
        rintro ⟨e1, e2⟩
        exact hk n hlt (Nat.lt_succ_self n) (e1.trans h1.symm) (e2.trans h2.symm)
  exact key W.nLinks hl.1 hl.2

/-- The route of a path of nodes. -/
theorem linksOn_ok {W : World} (hf : W.finalized = true) (cost : LinkId → ℚ) : ∀ (p : List NodeId) (a t : NodeId),
    NodePath (W.graphOf cost) a t p → ∃ r, W.linksOn p = .ok r ∧ Way W a t r ∧ stops W a r = p ∧
      costSum cost r = edgeSum (W.graphOf cost) p := by
  intro p
  induction p with
  | nil => intro a t h; have := h.first; simp at this
  | cons a p ih =>
    intro a' t ⟨h1, h2, h3⟩
    simp only [List.head?_cons, Option.some.injEq] at h1
    subst h1
    cases p with
    | nil =>
      simp only [List.getLast?_singleton, Option.some.injEq] at h2
      exact ⟨[], rfl, way_nil.2 h2, rfl, rfl⟩
    | cons b p =>
      rw [List.isChain_cons_cons] at h3
      rw [List.getLast?_cons_cons] at h2
      obtain ⟨r, i0, i1, i2, i3⟩ := ih b t ⟨rfl, h2, h3.2⟩
      obtain ⟨q, hq⟩ := Option.ne_none_iff_exists'.1 h3.1
      obtain ⟨l, l1, l2, l3, l4⟩ := (graphOf_iff W cost a b q).1 hq
      refine ⟨l :: r, ?_, way_cons.2 ⟨l1.1, l2, by rw [l3]; exact i1⟩, ?_, ?_⟩
      · unfold linksOn at i0 ⊢
        rw [List.tail_cons, List.zip_cons_cons, List.mapM_cons]
        rw [show W.pairLinkM (a, b) = .ok l by
          unfold pairLinkM
          rw [if_neg (by rw [hf]; decide)]
          dsimp only
          rw [pairLink_some W l1 l2 l3]]
        rw [ok_bind]
        change (List.mapM W.pairLinkM ((b :: p).zip p) >>= _) = _
        rw [List.tail_cons] at i0
        rw [i0, ok_bind]
        rfl
      · unfold stops at i2 ⊢
        rw [List.map_cons, l3, i2]
      · rw [edgeSum, ← i3, hq]
        simp only [costSum, List.map_cons, List.sum_cons, Option.getD_some, l4]

/-- Keys are distinct; routes are distinct, at most `k`, and lead from key to key. -/
structure GoodDict (W : World) (k : ℕ) (D : RouteDict) : Prop where
  keys : D.keys.Nodup
  len : ∀ x, (D.val x).length ≤ k
  once : ∀ x, (D.val x).Nodup
  way : ∀ x, ∀ r ∈ D.val x, Way W x.1 x.2 r
  empty : ∀ x, x ∉ D.keys → D.val x = []

theorem goodDict_empty (W : World) (k : ℕ) : GoodDict W k { keys := [], val := fun _ => [] } := by
  constructor <;> simp

theorem touch_val {W : World} {k : ℕ} {D : RouteDict} (h : GoodDict W k D) (x) : (D.touch x).val = D.val := by
  unfold RouteDict.touch
  split
  · rfl
  · rename_i hx
    funext y
    dsimp only
    rw [upd_apply]
    split
    · rename_i e; subst e; exact (h.empty _ hx).symm
    · rfl

theorem touch_keys (D : RouteDict) (x y) : y ∈ (D.touch x).keys ↔ y = x ∨ y ∈ D.keys := by
  unfold RouteDict.touch
  split
  · rename_i hx
    constructor
    · exact .inr
    · rintro (rfl | h)
      · exact hx
      · exact h
  · simp [or_comm]

theorem touch_good {W : World} {k : ℕ} {D : RouteDict} (h : GoodDict W k D) (x) : GoodDict W k (D.touch x) := by
  have hv := touch_val h x
  refine ⟨?_, by rw [hv]; exact h.len, by rw [hv]; exact h.once, by rw [hv]; exact h.way, ?_⟩
  · unfold RouteDict.touch
    split
    · exact h.keys
    · rename_i hx
      rw [List.nodup_append]
      refine ⟨h.keys, List.nodup_singleton _, ?_⟩
      intro a ha b hb
      rw [List.mem_singleton] at hb
      subst hb
      rintro rfl
      exact hx ha
  · intro y hy
    rw [hv]
    refine h.empty y fun hc => hy ?_
    exact (touch_keys D x y).2 (.inr hc)

/-- One pair. -/
theorem randomPair_ok {W : World} {k : ℕ} {D : RouteDict} (h : GoodDict W k D) {s t : NodeId} {p : List NodeId}
    {r : List LinkId} (hr : W.linksOn p = .ok r) (hw : Way W s t r) :
    ∃ D', W.randomPair k D ((s, t), p) = .ok D' ∧ GoodDict W k D' ∧
      (∀ y, y ∈ D'.keys ↔ y = (s, t) ∨ y ∈ D.keys) ∧ (∀ y, D.val y <+: D'.val y) ∧
      (∀ y, y ≠ (s, t) → D'.val y = D.val y) ∧ (0 < k → D.val (s, t) = [] → D'.val (s, t) = [r]) := by
  have hg := touch_good h (s, t)
  have hv := touch_val h (s, t)
  unfold randomPair
  dsimp only
  split
  · rename_i hlen
    rw [hr, ok_bind]
    refine ⟨_, rfl, ?_⟩
    split
    · rename_i hmem
      refine ⟨hg, fun y => touch_keys D _ y, fun y => by rw [hv], fun y _ => by rw [hv], fun _ h0 => ?_⟩
      rw [hv, h0] at hmem
      cases hmem
    · rename_i hmem
      refine ⟨⟨hg.keys, ?_, ?_, ?_, ?_⟩, fun y => touch_keys D _ y, ?_, ?_, ?_⟩
      · intro y
        dsimp only
        rw [upd_apply]
        split
        · rw [List.length_append, List.length_singleton]; omega
        · exact hg.len y
      · intro y
        dsimp only
        rw [upd_apply]
        split
        · rw [List.nodup_append]
          refine ⟨hg.once _, List.nodup_singleton _, ?_⟩
          intro a ha b hb
          rw [List.mem_singleton] at hb
          subst hb
          rintro rfl
          exact hmem ha
        · exact hg.once y
      · intro y r' hr'
        dsimp only at hr'
        rw [upd_apply] at hr'
        split at hr'
        · rename_i e
          subst e
          rcases List.mem_append.1 hr' with hr' | hr'
          · exact hg.way _ r' hr'
          · rw [List.mem_singleton] at hr'
            subst hr'
            exact hw
        · exact hg.way y r' hr'
      · intro y hy
        dsimp only at hy ⊢
        rw [upd_ne]
        · exact hg.empty y hy
        · rintro rfl
          exact hy ((touch_keys D _ _).2 (.inl rfl))
      · intro y
        dsimp only
        rw [upd_apply, hv]
        split
        · rename_i e; subst e; exact List.prefix_append _ _
        · exact List.prefix_rfl
      · intro y hy
        dsimp only
        rw [upd_ne _ _ hy, hv]
      · intro _ h0
        dsimp only
        rw [upd_same, hv, h0, List.nil_append]
  · rename_i hlen
    refine ⟨_, rfl, hg, fun y => touch_keys D _ y, fun y => by rw [hv], fun y _ => by rw [hv], fun hk h0 => ?_⟩
    rw [hv, h0] at hlen
    exact absurd hk hlen

/-- All pairs of one iteration. -/
theorem randomFold {W : World} (hf : W.finalized = true) (cost : LinkId → ℚ) {k : ℕ}
    (ps : List ((NodeId × NodeId) × List NodeId)) :
    ∀ (D : RouteDict), GoodDict W k D → (ps.map Prod.fst).Nodup →
      (∀ s t p, ((s, t), p) ∈ ps → NodePath (W.graphOf cost) s t p) →
      ∃ D', ps.foldlM (W.randomPair k) D = .ok D' ∧ GoodDict W k D' ∧
        (∀ y, y ∈ D'.keys ↔ y ∈ ps.map Prod.fst ∨ y ∈ D.keys) ∧ (∀ y, D.val y <+: D'.val y) ∧
        (0 < k → ∀ s t p, ((s, t), p) ∈ ps → D.val (s, t) = [] →
          ∃ r rest, D'.val (s, t) = r :: rest ∧ Way W s t r ∧ costSum cost r = edgeSum (W.graphOf cost) p) := by
  induction ps with
  | nil => intro D hD _ _; exact ⟨D, rfl, hD, by simp, fun y => List.prefix_rfl, by simp⟩
  | cons x ps ih =>
    intro D hD hnd hp
    obtain ⟨⟨s, t⟩, p⟩ := x
    rw [List.map_cons, List.nodup_cons] at hnd
    obtain ⟨r, r1, r2, -, r4⟩ := linksOn_ok hf cost p s t (hp s t p (by simp))
    obtain ⟨D1, a1, a2, a3, a4, a5, a6⟩ := randomPair_ok hD r1 r2
    obtain ⟨D', b1, b2, b3, b4, b5⟩ := ih D1 a2 hnd.2 (fun s t p h => hp s t p (List.mem_cons_of_mem _ h))
    refine ⟨D', by rw [List.foldlM_cons, a1, ok_bind, b1], b2, ?_, fun y => (a4 y).trans (b4 y), ?_⟩
    · intro y
      rw [b3, a3, List.map_cons, List.mem_cons]
      tauto
    · intro hk s' t' p' hmem h0
      rcases List.mem_cons.1 hmem with e | hmem
      · simp only [Prod.mk.injEq] at e
        obtain ⟨⟨rfl, rfl⟩, rfl⟩ := e
        have h1 := a6 hk h0
        obtain ⟨rest, hrest⟩ := b4 (s', t')
        rw [h1, List.singleton_append] at hrest
        exact ⟨r, rest, hrest.symm, r2, r4⟩
      · refine b5 hk s' t' p' hmem ?_
        rw [a5 _ ?_, h0]
        rintro e
        exact hnd.1 (by rw [← e]; exact List.mem_map.2 ⟨_, hmem, rfl⟩)

theorem graphOf_ne (W : World) (cost : LinkId → ℚ) (i j : NodeId) :
    W.graphOf cost i j ≠ none ↔ Hop W i j := by
  rw [Option.ne_none_iff_exists']
  constructor
  · rintro ⟨q, hq⟩
    obtain ⟨l, l1, l2, l3, -⟩ := (graphOf_iff W cost i j q).1 hq
    exact ⟨l, l1.1, l2, l3⟩
  · rintro ⟨l, l1, l2, l3⟩
    classical
    -- the last such link
    obtain ⟨m, hm⟩ : ∃ m, m ∈ (Finset.range W.nLinks).filter (fun k => W.L.startN k = i ∧ W.L.endN k = j) ∧
        ∀ k ∈ (Finset.range W.nLinks).filter (fun k => W.L.startN k = i ∧ W.L.endN k = j), k ≤ m := by
      have hne : ((Finset.range W.nLinks).filter (fun k => W.L.startN k = i ∧ W.L.endN k = j)).Nonempty :=
        ⟨l, Finset.mem_filter.2 ⟨Finset.mem_range.2 l1, l2, l3⟩⟩
      exact ⟨_, Finset.max'_mem _ hne, fun k hk => Finset.le_max' _ k hk⟩
    obtain ⟨h1, h2⟩ := hm
    rw [Finset.mem_filter, Finset.mem_range] at h1
    refine ⟨cost m, (graphOf_iff W cost i j _).2 ⟨m, ⟨h1.1, ?_⟩, h1.2.1, h1.2.2, rfl⟩⟩
    intro k k1 k2 k3 k4
    have := h2 k (Finset.mem_filter.2 ⟨Finset.mem_range.2 k2, k3.trans h1.2.1, k4.trans h1.2.2⟩)
    exact absurd k1 (Nat.not_lt.2 this)

theorem allPairs_mem {W : World} {cost : LinkId → ℚ} {ps} (h : AllPairs (W.graphOf cost) ps) (y : NodeId × NodeId) :
    y ∈ ps.map Prod.fst ↔ Connected W y.1 y.2 := by
  obtain ⟨s, t⟩ := y
  rw [h.mem]
  unfold Connected
  simp only [graphOf_ne]

theorem total_le {W : World} {k : ℕ} {D : RouteDict} (h : GoodDict W k D) : D.total ≤ k * D.keys.length := by
  unfold RouteDict.total
  rw [Nat.mul_comm]
  have := List.sum_le_card_nsmul (D.keys.map fun y => (D.val y).length) k (by
    intro x hx
    obtain ⟨y, -, rfl⟩ := List.mem_map.1 hx
    exact h.len y)
  simpa using this

theorem total_mono {D D' : RouteDict} (hn : D.keys.Nodup) (hn' : D'.keys.Nodup) (hk : ∀ y, y ∈ D'.keys ↔ y ∈ D.keys)
    (hv : ∀ y, D.val y <+: D'.val y) : D.total ≤ D'.total ∧ D'.keys.length = D.keys.length := by
  have hp : D'.keys.Perm D.keys := (List.perm_ext_iff_of_nodup hn' hn).2 hk
  refine ⟨?_, hp.length_eq⟩
  unfold RouteDict.total
  rw [(hp.map fun y => (D'.val y).length).sum_eq]
  exact List.sum_le_sum fun y _ => (hv y).length_le

section
variable {W : World} {k : ℕ} {ap : (NodeId → NodeId → Option ℚ) → List ((NodeId × NodeId) × List NodeId)}
  {rnd : ℕ → LinkId → ℚ}

/-- One iteration. -/
theorem randomIter (hf : W.finalized = true)
    (hap : ∀ it, AllPairs (W.graphOf (W.randomCost rnd it)) (ap (W.graphOf (W.randomCost rnd it)))) (it : ℕ)
    {D : RouteDict} (hD : GoodDict W k D) (hk : ∀ y ∈ D.keys, Connected W y.1 y.2) :
    ∃ D', (ap (W.graphOf (W.randomCost rnd it))).foldlM (W.randomPair k) D = .ok D' ∧ GoodDict W k D' ∧
      (∀ y, y ∈ D'.keys ↔ Connected W y.1 y.2) ∧ (∀ y, D.val y <+: D'.val y) ∧
      (0 < k → ∀ s t, Connected W s t → D.val (s, t) = [] → ∃ r rest, D'.val (s, t) = r :: rest ∧ Way W s t r ∧
        ∀ p, NodePath (W.graphOf (W.randomCost rnd it)) s t p →
          costSum (W.randomCost rnd it) r ≤ edgeSum (W.graphOf (W.randomCost rnd it)) p) := by
  have hA := hap it
  obtain ⟨D', a1, a2, a3, a4, a5⟩ := randomFold hf (W.randomCost rnd it) (k := k) _ D hD hA.once hA.path
  refine ⟨D', a1, a2, ?_, a4, ?_⟩
  · intro y
    rw [a3, allPairs_mem hA]
    exact ⟨fun h => h.elim id (hk y), .inl⟩
  · intro hk0 s t hc h0
    have hm := (allPairs_mem hA (s, t)).2 hc
    obtain ⟨⟨⟨s', t'⟩, p⟩, hp, e⟩ := List.mem_map.1 hm
    simp only [Prod.mk.injEq] at e
    obtain ⟨rfl, rfl⟩ := e
    obtain ⟨r, rest, r1, r2, r3⟩ := a5 hk0 s' t' p hp h0
    exact ⟨r, rest, r1, r2, fun p' hp' => by rw [r3]; exact hA.least s' t' p hp p' hp'⟩

/-- The loop after its first iteration. -/
theorem randomLoop_ok (hf : W.finalized = true)
    (hap : ∀ it, AllPairs (W.graphOf (W.randomCost rnd it)) (ap (W.graphOf (W.randomCost rnd it)))) :
    ∀ (fuel it c : ℕ) (D : RouteDict), c ≤ 10 → GoodDict W k D → (∀ y, y ∈ D.keys ↔ Connected W y.1 y.2) →
      0 < D.keys.length →
      (∃ D', W.randomLoop k ap rnd fuel it c ((D.total : ℚ) / D.keys.length) D = .ok D' ∧ GoodDict W k D' ∧
        (∀ y, y ∈ D'.keys ↔ Connected W y.1 y.2) ∧ ∀ y, D.val y <+: D'.val y) ∨
      (W.randomLoop k ap rnd fuel it c ((D.total : ℚ) / D.keys.length) D = .error .diverge ∧
        fuel < 12 * (k * D.keys.length - D.total) + (11 - c)) := by
  intro fuel
  induction fuel with
  | zero => intro it c D hc _ _ _; exact .inr ⟨rfl, by omega⟩
  | succ fuel ih =>
    intro it c D hc hD hk hpos
    obtain ⟨D1, a1, a2, a3, a4, -⟩ := randomIter hf hap it hD (fun y hy => (hk y).1 hy)
    obtain ⟨m1, m2⟩ := total_mono hD.keys a2.keys (fun y => by rw [a3, hk]) a4
    have hle := total_le a2
    have hle0 := total_le hD
    rw [m2] at hle
    have hstep : W.randomLoop k ap rnd (fuel + 1) it c ((D.total : ℚ) / D.keys.length) D =
        (if 10 < (if (D1.total : ℚ) / D1.keys.length = (D.total : ℚ) / D.keys.length then c + 1 else 0) then .ok D1
          else W.randomLoop k ap rnd fuel (it + 1)
            (if (D1.total : ℚ) / D1.keys.length = (D.total : ℚ) / D.keys.length then c + 1 else 0)
            ((D1.total : ℚ) / D1.keys.length) D1) := by
      rw [randomLoop, a1, ok_bind, if_neg (by rw [m2]; omega)]
    rw [hstep]
    have hq : (0 : ℚ) < D.keys.length := by exact_mod_cast hpos
    have hiff : (D1.total : ℚ) / D1.keys.length = (D.total : ℚ) / D.keys.length ↔ D1.total = D.total := by
      rw [m2, div_left_inj' hq.ne']
      exact Nat.cast_inj
    have hpre : ∀ {D' : RouteDict}, (∀ y, D1.val y <+: D'.val y) → ∀ y, D.val y <+: D'.val y :=
      fun h y => (a4 y).trans (h y)
    by_cases he : D1.total = D.total
    · rw [if_pos (hiff.2 he)]
      split
      · exact .inl ⟨D1, rfl, a2, a3, a4⟩
      · rcases ih (it + 1) (c + 1) D1 (by omega) a2 a3 (by rw [m2]; exact hpos) with ⟨D', b1, b2, b3, b4⟩ | ⟨b1, b2⟩
        · exact .inl ⟨D', b1, b2, b3, hpre b4⟩
        · refine .inr ⟨b1, ?_⟩
          rw [m2, he] at b2
          omega
    · rw [if_neg (fun h => he (hiff.1 h)), if_neg (by omega)]
      rcases ih (it + 1) 0 D1 (by omega) a2 a3 (by rw [m2]; exact hpos) with ⟨D', b1, b2, b3, b4⟩ | ⟨b1, b2⟩
      · exact .inl ⟨D', b1, b2, b3, hpre b4⟩
      · refine .inr ⟨b1, ?_⟩
        rw [m2] at b2
        omega

/-- The whole call. -/
theorem randomRoutes_ok (hf : W.finalized = true)
    (hap : ∀ it, AllPairs (W.graphOf (W.randomCost rnd it)) (ap (W.graphOf (W.randomCost rnd it))))
    (hlink : 0 < W.nLinks) : ∃ n : ℕ, ∀ fuel,
      (∃ D', W.randomRoutes k ap rnd fuel = .ok D' ∧ GoodDict W k D' ∧
        (∀ y, y ∈ D'.keys ↔ Connected W y.1 y.2) ∧ D'.keys.length = n ∧
        (0 < k → ∀ s t, Connected W s t → ∃ r rest, D'.val (s, t) = r :: rest ∧ Way W s t r ∧
          ∀ p, NodePath (W.graphOf (W.randomCost rnd 0)) s t p →
            costSum (W.randomCost rnd 0) r ≤ edgeSum (W.graphOf (W.randomCost rnd 0)) p)) ∨
      (W.randomRoutes k ap rnd fuel = .error .diverge ∧ fuel ≤ 12 * (k * n) + 11) := by
  obtain ⟨D1, a1, a2, a3, a4, a5⟩ := randomIter hf hap 0 (goodDict_empty W k) (by simp)
  have hpos : 0 < D1.keys.length := by
    refine List.length_pos_of_mem (a := (W.L.startN 0, W.L.startN 0)) ((a3 _).2 ⟨⟨W.L.endN 0, .inl ⟨0, hlink, rfl, rfl⟩⟩, .refl⟩)
  refine ⟨D1.keys.length, fun fuel => ?_⟩
  cases fuel with
  | zero => exact .inr ⟨rfl, by omega⟩
  | succ fuel =>
    set c := if (D1.total : ℚ) / D1.keys.length = 0 then 0 + 1 else 0 with hc
    have hc1 : c ≤ 1 := by rw [hc]; split <;> omega
    have hstep : W.randomRoutes k ap rnd (fuel + 1) =
        W.randomLoop k ap rnd fuel 1 c ((D1.total : ℚ) / D1.keys.length) D1 := by
      rw [randomRoutes, randomLoop, a1, ok_bind, if_neg (by omega)]
      dsimp only
      rw [← hc, if_neg (by omega)]
    rw [hstep]
    rcases randomLoop_ok hf hap fuel 1 c D1 (by omega) a2 a3 hpos with ⟨D', b1, b2, b3, b4⟩ | ⟨b1, b2⟩
    · refine .inl ⟨D', b1, b2, b3, ?_, ?_⟩
      · exact (total_mono a2.keys b2.keys (fun y => by rw [a3, b3]) b4).2
      · intro hk s t hst
        obtain ⟨r, rest, r1, r2, r3⟩ := a5 hk s t hst rfl
        obtain ⟨rest', hrest⟩ := b4 (s, t)
        rw [r1] at hrest
        exact ⟨r, rest ++ rest', by rw [← hrest]; rfl, r2, r3⟩
    · refine .inr ⟨b1, ?_⟩
      have : k * D1.keys.length - D1.total ≤ k * D1.keys.length := Nat.sub_le _ _
      omega

end

end UX
