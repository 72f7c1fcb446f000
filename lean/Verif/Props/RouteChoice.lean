import Verif.Proofs.RFrame
import Verif.Spec.RouteChoice
import Verif.Props.Demo
import Mathlib.Tactic.FieldSimp
import Mathlib.Tactic.Positivity
import Mathlib.Tactic.Linarith
import Mathlib.Tactic.IntervalCases
import Mathlib.Data.Finset.Card

/-!
# Route choice (C30, C31, C32)
-/

namespace UX
open World

/-! ## C32: the cost matrix -/

/-- The cost matrix after the first `m` links. -/
def parallelTo (W : World) (m : ℕ) (i j : NodeId) : List LinkId :=
  (List.range m).filter (fun l => decide (W.L.startN l = i) && decide (W.L.endN l = j))

/-- Mean cost of open links; infinite if one is closed; zero, that is no edge, without links. -/
def meanCost (W : World) (t : ℚ) (ls : List LinkId) : Option ℚ :=
  if ls.any (fun l => decide (W.L.capIn l = 0)) then none
  else some ((ls.map (linkCost W t)).sum / ls.length)

theorem parallelTo_succ (W : World) (m : ℕ) (i j : NodeId) : parallelTo W (m + 1) i j =
    parallelTo W m i j ++ (if W.L.startN m = i ∧ W.L.endN m = j then [m] else []) := by
  unfold parallelTo
  rw [List.range_succ, List.filter_append]
  congr 1
  by_cases h : W.L.startN m = i ∧ W.L.endN m = j
  · simp [h]
  · rw [if_neg h]; rw [not_and_or] at h; rcases h with h | h <;> simp [h]

theorem meanCost_snoc (W : World) (t : ℚ) (ls : List LinkId) (l : LinkId) :
    meanCost W t (ls ++ [l]) = if W.L.capIn l = 0 then none
      else (meanCost W t ls).map (fun a => a * ls.length / (ls.length + 1) + linkCost W t l / (ls.length + 1)) := by
  unfold meanCost
  rw [List.any_append]
  by_cases h : W.L.capIn l = 0
  · simp [h]
  · by_cases h2 : (ls.any fun l => decide (W.L.capIn l = 0)) = true
    · simp [h, h2]
    · simp only [h, h2, List.any_cons, List.any_nil]
      simp only [decide_false, Bool.or_self, Bool.false_eq_true, if_false, Option.map_some,
        List.map_append, List.sum_append, List.map_cons, List.map_nil, List.sum_cons, List.sum_nil,
        List.length_append, List.length_cons, List.length_nil]
      congr 1
      rcases ls with _ | ⟨a, ls⟩
      · simp
      · push_cast
        simp only [List.length_cons]
        push_cast
        field_simp
        ring

theorem adjMatrix_prefix {W : World} {t : ℚ} {m : ℕ} (hm : m ≤ W.nLinks) {acc : AdjAcc}
    (h : (List.range m).foldlM (W.adjStep t)
      { adj := fun _ _ => some 0, cnt := fun _ _ => 0, rng := W.rng } = .ok acc) :
    (∀ i j, acc.adj i j = meanCost W t (parallelTo W m i j)) ∧
    (∀ i j, acc.cnt i j = (parallelTo W m i j).length) ∧
    (acc.rng = if W.cfg.hardDet then W.rng else fun k => W.rng (k + m)) ∧
    ∀ l < m, W.L.ttInstant l ≠ [] := by
  induction m generalizing acc with
  | zero =>
    simp only [List.range_zero, List.foldlM_nil] at h
    rw [pure_ok] at h
    subst h
    refine ⟨fun i j => by simp [parallelTo, meanCost], fun i j => by simp [parallelTo], ?_, by simp⟩
    split <;> rfl
  | succ m ih =>
    rw [List.range_succ, List.foldlM_append, bind_ok] at h
    obtain ⟨acc1, h1, h⟩ := h
    obtain ⟨i1, i2, i3, i4⟩ := ih (by omega) h1
    simp only [List.foldlM_cons, List.foldlM_nil, bind_pure] at h
    unfold adjStep at h
    split at h
    · cases h
    · rename_i q qs hq
      cases h
      have hcost : (if W.cfg.hardDet = true then q + W.L.toll m t
          else q * noiseFactor W.cfg.duoNoise (acc1.rng 0) + W.L.toll m t) = linkCost W t m := by
        unfold linkCost
        rw [hq]
        cases hd : W.cfg.hardDet <;> simp [i3, hd]
      refine ⟨fun i j => ?_, fun i j => ?_, ?_, ?_⟩
      · dsimp only
        rw [hcost, parallelTo_succ]
        by_cases h : W.L.startN m = i ∧ W.L.endN m = j
        · obtain ⟨rfl, rfl⟩ := h
          rw [upd_same, upd_same, if_pos (c := _ ∧ _) ⟨rfl, rfl⟩, meanCost_snoc, i1, i2]
        · rw [if_neg h, List.append_nil, ← i1]
          by_cases hs : i = W.L.startN m
          · subst hs
            rw [upd_same, upd_ne]
            rintro rfl; exact h ⟨rfl, rfl⟩
          · rw [upd_ne _ _ hs]
      · dsimp only
        rw [parallelTo_succ]
        by_cases h : W.L.startN m = i ∧ W.L.endN m = j
        · obtain ⟨rfl, rfl⟩ := h
          rw [upd_same, upd_same, if_pos (c := _ ∧ _) ⟨rfl, rfl⟩, i2]; simp
        · rw [if_neg h, List.append_nil, ← i2]
          by_cases hs : i = W.L.startN m
          · subst hs
            rw [upd_same, upd_ne]
            rintro rfl; exact h ⟨rfl, rfl⟩
          · rw [upd_ne _ _ hs]
      · dsimp only
        cases hd : W.cfg.hardDet
        · simp only [Bool.false_eq_true, if_false]
          funext k
          rw [i3, hd]
          simp only [Bool.false_eq_true, if_false]
          congr 1; omega
        · simp only [if_true]; rw [i3, hd]; simp
      · intro l hl
        rcases Nat.lt_succ_iff_lt_or_eq.1 hl with hl | rfl
        · exact i4 l hl
        · rw [hq]; simp

theorem adjMatrix_cost {W : World} {t : ℚ} {acc : AdjAcc} (h : W.adjMatrix t = .ok acc) (i j : NodeId) :
    acc.adj i j = meanCost W t (parallel W i j) := (adjMatrix_prefix le_rfl h).1 i j

/-- The cost between two nodes used for route search is the mean of the costs of the links between
them, as long as none of them is closed. Missing: what happens when one is closed is
`C32_closed_blocks`, not what the property says. -/
theorem C32_mean_partial {W : World} {t : ℚ} {acc : AdjAcc} (h : W.adjMatrix t = .ok acc) {i j : NodeId}
    (ho : ∀ l ∈ parallel W i j, W.L.capIn l ≠ 0) :
    acc.adj i j = some (((parallel W i j).map (linkCost W t)).sum / (parallel W i j).length) := by
  rw [adjMatrix_cost h, meanCost, if_neg]
  simp only [List.any_eq_true, decide_eq_true_eq, not_exists, not_and]
  exact ho

/-- The randomisation of a cost is upward, and below the given noise. -/
theorem C32_noise (noise : ℚ) (hn : 0 ≤ noise) (r : ℕ) :
    1 ≤ noiseFactor noise r ∧ noiseFactor noise r ≤ 1 + noise := by
  unfold noiseFactor
  have h0 : (0:ℚ) ≤ ((r % 2 ^ 53 : ℕ) : ℚ) / 2 ^ 53 := by positivity
  have h1 : ((r % 2 ^ 53 : ℕ) : ℚ) / 2 ^ 53 ≤ 1 := by
    rw [div_le_one (by positivity)]
    have : r % 2 ^ 53 < 2 ^ 53 := Nat.mod_lt _ (by positivity)
    exact_mod_cast this.le
  constructor
  · nlinarith
  · nlinarith

/-- Closing one of several parallel links makes the whole connection impassable for route search:
the property claims the opposite. -/
theorem C32_closed_blocks {W : World} {t : ℚ} {acc : AdjAcc} (h : W.adjMatrix t = .ok acc) {i j : NodeId}
    {l : LinkId} (hl : l ∈ parallel W i j) (hc : W.L.capIn l = 0) : acc.adj i j = none := by
  rw [adjMatrix_cost h, meanCost, if_pos]
  simp only [List.any_eq_true, decide_eq_true_eq]
  exact ⟨l, hl, hc⟩

/-- What the shortest-path routine is called with. -/
theorem C32_search {W W' : World} (h : W.routeSearchAll = .ok W') :
    ∃ acc, W.adjMatrix W.now = .ok acc ∧ (∀ i j, acc.adj i j = meanCost W W.now (parallel W i j)) ∧
      W'.R.dist = (W.cfg.dijkstra W.nNodes acc.adj).1 ∧ W'.R.next = (W.cfg.dijkstra W.nNodes acc.adj).2 := by
  unfold routeSearchAll at h
  rw [bind_ok] at h
  obtain ⟨acc, h1, h⟩ := h
  rw [pure_ok] at h
  subst h
  exact ⟨acc, h1, adjMatrix_cost h1, rfl, rfl⟩

/-- two parallel links from `a` to `b`, of 200 m and 400 m -/
def parallelDemo (k : ℕ) : List Cmd :=
  [.node { name := "a" }, .node { name := "b" },
   .link { name := some "p", startN := .obj 0, endN := .obj 1, length := 200 },
   .link { name := some "q", startN := .obj 0, endN := .obj 1, length := 400 },
   .fin (some 300)] ++ List.replicate k .tick

/-- Travel times 10 s and 20 s: the mean is used. -/
example : obs (runCmds demoCfg (fun _ => 0) (parallelDemo 1))
    (fun W => match W.adjMatrix W.now with
      | .ok acc => decide (acc.adj 0 1 = some 15 ∧ parallel W 0 1 = [0, 1]) | .error _ => false) = true := by
  decide +kernel

/-- One of them closed: no way from `a` to `b`, although the other one is open. -/
theorem C32_false : ∃ W acc, Reachable Any W ∧ W.adjMatrix W.now = .ok acc ∧ parallel W 0 1 = [0, 1] ∧
    W.L.capIn 0 = 0 ∧ W.L.capIn 1 ≠ 0 ∧ acc.adj 0 1 = none := by
  have h : obs (runCmds demoCfg (fun _ => 0) (parallelDemo 1 ++ [.capIn 0 0]))
    (fun W => match W.adjMatrix W.now with
      | .ok acc => decide (acc.adj 0 1 = none ∧ parallel W 0 1 = [0, 1] ∧ W.L.capIn 0 = 0 ∧ W.L.capIn 1 ≠ 0)
      | .error _ => false) = true := by decide +kernel
  obtain ⟨W, h1, h2⟩ := obs_ok h
  split at h2
  · rename_i acc ha
    simp only [decide_eq_true_eq] at h2
    exact ⟨W, acc, runCmds_reachable h1, ha, h2.2.1, h2.2.2.1, h2.2.2.2, h2.1⟩
  · cases h2

/-! ## C31: following the next node -/

theorem ShortestPaths.leads {n : ℕ} {c : NodeId → NodeId → Option ℚ} {dist next}
    (h : ShortestPaths n c dist next) (hpos : ∀ i j q, i < n → j < n → Edge c i j q → 0 < q)
    {i k : NodeId} (hi : i < n) (hk : k < n) (hj : Joined n c i k) :
    LeadsTo n (fun a b => a < n ∧ b < n ∧ ∃ q, Edge c a b q) dist next i k := by
  classical
  -- nodes closer than `i`
  have main : ∀ (m : ℕ) (i : NodeId), i < n → Joined n c i k →
      ((Finset.range n).filter (fun a => ∃ da di, dist a k = some da ∧ dist i k = some di ∧ da < di)).card = m →
      ∃ r ≤ m, follow next k i r = some k ∧ ∀ s < r, ∃ a b da db,
        follow next k i s = some a ∧ follow next k i (s + 1) = some b ∧
        (a < n ∧ b < n ∧ ∃ q, Edge c a b q) ∧
        dist a k = some da ∧ dist b k = some db ∧ db < da := by
    intro m
    induction m using Nat.strong_induction_on with
    | _ m ih =>
      intro i hi hj hm
      by_cases hik : i = k
      · subst hik
        exact ⟨0, Nat.zero_le _, rfl, fun s hs => absurd hs (Nat.not_lt_zero _)⟩
      · obtain ⟨j, q, d, hjn, hnx, he, hd, hdi⟩ := h.hop i k hi hk hik hj
        have hq := hpos i j q hi hjn he
        have hjj : Joined n c j k := by
          by_contra hc
          have := (h.apart j k hjn hk hc).1
          rw [hd] at this; cases this
        have hlt : ((Finset.range n).filter (fun a => ∃ da di, dist a k = some da ∧ dist j k = some di ∧ da < di)).card < m := by
          rw [← hm]
          refine Finset.card_lt_card ⟨?_, ?_⟩
          · intro a ha
            rw [Finset.mem_filter] at ha ⊢
            obtain ⟨h1, da, dj, h2, h3, h4⟩ := ha
            rw [hd, Option.some.injEq] at h3
            subst h3
            exact ⟨h1, da, q + d, h2, hdi, by linarith⟩
          · intro hsub
            have : j ∈ (Finset.range n).filter (fun a => ∃ da di, dist a k = some da ∧ dist i k = some di ∧ da < di) := by
              rw [Finset.mem_filter]
              exact ⟨Finset.mem_range.2 hjn, d, q + d, hd, hdi, by linarith⟩
            have := hsub this
            rw [Finset.mem_filter] at this
            obtain ⟨-, da, dj, h2, h3, h4⟩ := this
            rw [h2, Option.some.injEq] at h3
            rw [h3] at h4
            exact lt_irrefl _ h4
        obtain ⟨r, hr, hf, hs⟩ := ih _ hlt j hjn hjj rfl
        have shift : ∀ s, follow next k i (s + 1) = follow next k j s := by
          intro s
          induction s with
          | zero => simp [follow, hnx]
          | succ s ih2 => rw [follow, ih2]; rfl
        refine ⟨r + 1, by omega, by rw [shift]; exact hf, ?_⟩
        intro s hsr
        rcases s with _ | s
        · exact ⟨i, j, q + d, d, rfl, by rw [shift]; rfl, ⟨hi, hjn, q, he⟩, hdi, hd, by linarith⟩
        · rw [shift, shift]; exact hs s (by omega)
  obtain ⟨r, hr, hf, hs⟩ := main _ i hi hj rfl
  refine ⟨r, lt_of_le_of_lt hr ?_, hf, hs⟩
  have : ((Finset.range n).filter (fun a => ∃ da di, dist a k = some da ∧ dist i k = some di ∧ da < di)) ⊂ Finset.range n := by
    refine ⟨Finset.filter_subset _ _, fun hsub => ?_⟩
    have := hsub (Finset.mem_range.2 hi)
    rw [Finset.mem_filter] at this
    obtain ⟨-, da, dj, h2, h3, h4⟩ := this
    rw [h2, Option.some.injEq] at h3
    rw [h3] at h4
    exact lt_irrefl _ h4
  simpa using Finset.card_lt_card this

/-- `b` is one hop from `a` for route search: there are links from `a` to `b` and none is closed. -/
def OpenHop (W : World) (a b : NodeId) : Prop :=
  parallel W a b ≠ [] ∧ ∀ l ∈ parallel W a b, W.L.capIn l ≠ 0

theorem mem_parallel {W : World} {i j : NodeId} {l : LinkId} :
    l ∈ parallel W i j ↔ l < W.nLinks ∧ W.L.startN l = i ∧ W.L.endN l = j := by
  simp [parallel]

theorem meanCost_pos {W : World} {t : ℚ} {ls : List LinkId} (h0 : ls ≠ [])
    (hp : ∀ l ∈ ls, 0 < linkCost W t l) : 0 < (ls.map (linkCost W t)).sum / ls.length := by
  have hs : 0 < (ls.map (linkCost W t)).sum := by
    induction ls with
    | nil => exact absurd rfl h0
    | cons a ls ih =>
      rw [List.map_cons, List.sum_cons]
      have h1 := hp a (by simp)
      rcases ls with _ | ⟨b, ls⟩
      · simpa using h1
      · have := ih (by simp) (fun l hl => hp l (by simp [hl]))
        linarith
  have hl : (0:ℚ) < ls.length := by exact_mod_cast List.length_pos_of_ne_nil h0
  positivity

/-- An edge of the cost matrix is exactly a hop over open links. -/
theorem edge_iff {W : World} {t : ℚ} {acc : AdjAcc} (h : W.adjMatrix t = .ok acc)
    (hpos : ∀ l < W.nLinks, 0 < linkCost W t l) {i j : NodeId} :
    ((∃ q, Edge acc.adj i j q) ↔ OpenHop W i j) ∧ ∀ q, Edge acc.adj i j q → 0 < q := by
  have hc := adjMatrix_cost h i j
  have hp : ∀ l ∈ parallel W i j, 0 < linkCost W t l := fun l hl => hpos l (mem_parallel.1 hl).1
  by_cases hcl : ∃ l ∈ parallel W i j, W.L.capIn l = 0
  · obtain ⟨l, hl, h0⟩ := hcl
    have := C32_closed_blocks h hl h0
    constructor
    · constructor
      · rintro ⟨q, e, -⟩; rw [this] at e; cases e
      · rintro ⟨-, ho⟩; exact absurd h0 (ho l hl)
    · rintro q ⟨e, -⟩; rw [this] at e; cases e
  · push Not at hcl
    have hm := C32_mean_partial h hcl
    by_cases hn : parallel W i j = []
    · rw [hn] at hm
      simp at hm
      constructor
      · constructor
        · rintro ⟨q, e, hq⟩; rw [hm] at e; cases e; exact absurd rfl hq
        · rintro ⟨ho, -⟩; exact absurd hn ho
      · rintro q ⟨e, hq⟩; rw [hm] at e; cases e; exact absurd rfl hq
    · have hpos := meanCost_pos hn hp
      constructor
      · exact ⟨fun _ => ⟨hn, hcl⟩, fun _ => ⟨_, hm, ne_of_gt hpos⟩⟩
      · rintro q ⟨e, -⟩; rw [hm] at e; cases e; exact hpos

/-- After a route search: if the routine meets its specification and link costs are positive, then
from any node with a way to the destination over open links, following `next` visits nodes of
strictly decreasing distance and reaches the destination in fewer hops than there are nodes. -/
theorem C31_search {W W' : World} (h : W.routeSearchAll = .ok W')
    (hspec : ∀ c, (∀ i j q, Edge c i j q → 0 < q) → (∀ i j, (∃ q, Edge c i j q) ↔ OpenHop W i j) →
      ShortestPaths W.nNodes c (W.cfg.dijkstra W.nNodes c).1 (W.cfg.dijkstra W.nNodes c).2)
    (hpos : ∀ l < W.nLinks, 0 < linkCost W W.now l)
    (hends : ∀ l < W.nLinks, W.L.startN l < W.nNodes ∧ W.L.endN l < W.nNodes)
    {i k : NodeId} (hi : i < W.nNodes) (hk : k < W.nNodes)
    (hway : Relation.ReflTransGen (OpenHop W) i k) :
    LeadsTo W.nNodes (OpenHop W) W'.R.dist W'.R.next i k := by
  obtain ⟨acc, h1, -, h3, h4⟩ := C32_search h
  have he := fun i j => edge_iff (i := i) (j := j) h1 hpos
  have hsp := hspec acc.adj (fun i j q hq => (he i j).2 q hq) (fun i j => (he i j).1)
  rw [← h3, ← h4] at hsp
  have hj : Joined W.nNodes acc.adj i k := by
    refine Relation.ReflTransGen.mono (r := OpenHop W) (fun a b hab => ?_) _ _ hway
    obtain ⟨l, hl⟩ := List.exists_mem_of_ne_nil _ hab.1
    obtain ⟨l1, rfl, rfl⟩ := mem_parallel.1 hl
    exact ⟨(hends l l1).1, (hends l l1).2, (he _ _).1.2 hab⟩
  obtain ⟨m, hm, hf, hs⟩ := hsp.leads (fun i j q _ _ hq => (he i j).2 q hq) hi hk hj
  refine ⟨m, hm, hf, fun s hsm => ?_⟩
  obtain ⟨a, b, da, db, e1, e2, ⟨-, -, e3⟩, e4, e5, e6⟩ := hs s hsm
  exact ⟨a, b, da, db, e1, e2, (he a b).1.1 e3, e4, e5, e6⟩

/-- `routeStep` when a search is due. -/
theorem routeStep_search {W W' : World} (hdue : W.T % W.cfg.deltatRoute = 0) (h : W.routeStep = .ok W') :
    ∃ W1, W.routeSearchAll = .ok W1 ∧ W'.R = W1.duoUpdate.R ∧ W'.L = W1.L ∧ W'.N = W1.N := by
  unfold routeStep at h
  split at h
  · dsimp only at h
    rw [bind_ok] at h
    obtain ⟨W1, h1, h⟩ := h
    rw [pure_ok] at h
    subst h
    exact ⟨W1, h1, rfl, rfl, rfl⟩
  · rw [bind_ok] at h
    obtain ⟨W1, h1, h⟩ := h
    refine ⟨W1, h1, ?_⟩
    refine foldlM_inv (P := fun X => X.R = W1.duoUpdate.R ∧ X.L = W1.L ∧ X.N = W1.N) ?_
      ⟨rfl, rfl, rfl⟩ h
    intro s a s' _ hs hf
    obtain ⟨pref, rfl⟩ := routePrefUpdate_ok hf
    exact hs

theorem routeSearchAll_frame {W W1 : World} (h : W.routeSearchAll = .ok W1) :
    W1.L = W.L ∧ W1.N = W.N ∧ W1.nLinks = W.nLinks ∧ W1.nNodes = W.nNodes ∧ W1.cfg = W.cfg ∧
      W1.R.pref = W.R.pref ∧ W1.T = W.T := by
  unfold routeSearchAll at h
  rw [bind_ok] at h
  obtain ⟨acc, h1, h⟩ := h
  rw [pure_ok] at h
  subst h
  exact ⟨rfl, rfl, rfl, rfl, rfl, rfl, rfl⟩

/-- In every execution: after each step at which routes are searched, `next` leads to every
destination that has a way over open links. Travel times are those of the step just made; they must
be positive and tolls must not be negative. -/
theorem C31_step {W W' : World} (h : Reachable Any W) (hf : W.finalized = true)
    (ht : W.tick = .ok W') (hdue : W.T % W.cfg.deltatRoute = 0)
    (hspec : ∀ c, (∀ i j q, Edge c i j q → 0 < q) → (∀ i j, (∃ q, Edge c i j q) ↔ OpenHop W i j) →
      ShortestPaths W.nNodes c (W.cfg.dijkstra W.nNodes c).1 (W.cfg.dijkstra W.nNodes c).2)
    (hnoise : 0 ≤ W.cfg.duoNoise)
    (htt : ∀ l < W.nLinks, 0 < (W'.L.ttInstant l).headD 0) (htoll : ∀ l < W.nLinks, 0 ≤ W.L.toll l W.now)
    {i k : NodeId} (hi : i < W.nNodes) (hk : k < W.nNodes)
    (hway : Relation.ReflTransGen (OpenHop W) i k) :
    LeadsTo W.nNodes (OpenHop W) W'.R.dist W'.R.next i k := by
  obtain ⟨W0, h0, rfl⟩ := tick_ok ht
  obtain ⟨W1, W2, W3, W4, W5, W6, hp, rfl⟩ := step_phases (h.inv.core hf) h0
  have st : Static W W5 := (((hp.s1.static.trans hp.s2.static).trans hp.s3.static).trans
    hp.s4.static).trans hp.s5.static
  obtain ⟨V, hV, e1, e2, e3⟩ := routeStep_search (by rw [st.T, st.cfg]; exact hdue) hp.p6
  obtain ⟨f1, f2, f3, f4, f5, f6, f7⟩ := routeSearchAll_frame hV
  have hnow : W5.now = W.now := by simp [World.now, World.fl, World.dt, st.cfg, st.T]
  have hop : OpenHop W = OpenHop W5 := by
    funext a b
    unfold OpenHop parallel
    rw [st.nLinks, st.startN, st.endN, st.capIn]
  rw [hop] at hway ⊢
  have := C31_search hV (by rw [st.nNodes, st.cfg, ← hop]; exact hspec) ?_ ?_ (by rw [st.nNodes]; exact hi)
    (by rw [st.nNodes]; exact hk) hway
  · rw [st.nNodes] at this
    show LeadsTo W.nNodes (OpenHop W5) W6.R.dist W6.R.next i k
    rw [e1]
    exact this
  · intro l hl
    rw [st.nLinks] at hl
    have a1 : 0 < (W5.L.ttInstant l).headD 0 := by
      have := htt l hl
      rw [show ({ ({ W6 with time := W6.now } : World) with T := _ } : World).L = W6.L from rfl, e2, f1] at this
      exact this
    have a2 := htoll l hl
    unfold linkCost
    dsimp only
    rw [hnow, st.toll]
    split
    · linarith
    · have := (C32_noise W5.cfg.duoNoise (by rw [st.cfg]; exact hnoise) (W5.rng l)).1
      have : (W5.L.ttInstant l).headD 0 ≤ (W5.L.ttInstant l).headD 0 * noiseFactor W5.cfg.duoNoise (W5.rng l) :=
        le_mul_of_one_le_right a1.le this
      linarith
  · intro l hl
    exact hp.c5.s.ends_lt l hl

/-- A routine that is right for the two-node network of `parallelDemo`. -/
def lineSearch (_ : ℕ) (c : NodeId → NodeId → Option ℚ) :
    (NodeId → NodeId → Option ℚ) × (NodeId → NodeId → Option NodeId) :=
  (fun i k => if i = k then some 0 else if i = 0 ∧ k = 1 then c 0 1 else none,
   fun i k => if i = 0 ∧ k = 1 then some 1 else none)

theorem lineSearch_ok (c : NodeId → NodeId → Option ℚ)
    (h : ∀ i j, (∃ q, Edge c i j q) ↔ i = 0 ∧ j = 1) :
    ShortestPaths 2 c (lineSearch 2 c).1 (lineSearch 2 c).2 := by
  obtain ⟨q, hq⟩ := (h 0 1).2 ⟨rfl, rfl⟩
  constructor
  · intro k _; simp [lineSearch]
  · intro i k hi hk hne hj
    have : i = 0 ∧ k = 1 := by
      cases hj.cases_head with
      | inl e => exact absurd e hne
      | inr e =>
        obtain ⟨j, ⟨-, -, e1⟩, e2⟩ := e
        obtain ⟨rfl, rfl⟩ := (h i j).1 e1
        refine ⟨rfl, ?_⟩
        rcases e2.cases_head with e | ⟨j, ⟨-, -, e3⟩, -⟩
        · exact e.symm
        · exact absurd ((h _ _).1 e3).1 (by decide)
    obtain ⟨rfl, rfl⟩ := this
    exact ⟨1, q, 0, by decide, by simp [lineSearch], hq, by simp [lineSearch], by simp [lineSearch, hq.1]⟩
  · intro i j k q' d hi hj hk he hd
    obtain ⟨rfl, rfl⟩ := (h i j).1 ⟨q', he⟩
    have : k = 1 := by
      rcases Nat.lt_succ_iff_lt_or_eq.1 hk with e | e
      · rcases Nat.lt_one_iff.1 e
        simp [lineSearch] at hd
      · exact e
    subst this
    simp only [lineSearch, if_true, Option.some.injEq] at hd
    subst hd
    exact ⟨q', by simp [lineSearch, he.1], by simp⟩
  · intro i k hi hk hn
    have h1 : i ≠ k := by rintro rfl; exact hn .refl
    have h2 : ¬ (i = 0 ∧ k = 1) := by
      rintro ⟨rfl, rfl⟩
      exact hn (.single ⟨hi, hk, q, hq⟩)
    simp [lineSearch, h1, h2]

def lineCfg : Config := { demoCfg with dijkstra := lineSearch }

theorem runCmds_cfg {cfg rng cs W} (h : runCmds cfg rng cs = .ok W) : W.cfg = cfg :=
  (foldlM_inv (P := fun W => Reachable Any W ∧ W.cfg = cfg)
    (fun _ _ _ _ hr hc => ⟨.next hr.1 (Cmd.run_api hc) trivial, ((Cmd.run_api hc).cfg hr.1.inv).trans hr.2⟩)
    ⟨.new trivial, rfl⟩ h).2

/-- The hypotheses of `C31_step` are met by the first step of `parallelDemo`. -/
example : ∃ W W', Reachable Any W ∧ W.tick = .ok W' ∧ LeadsTo 2 (OpenHop W) W'.R.dist W'.R.next 0 1 := by
  have h : obs (runCmds lineCfg (fun _ => 0) (parallelDemo 0)) (fun W => decide (W.finalized = true ∧
      W.nNodes = 2 ∧ W.nLinks = 2 ∧ W.T = 0 ∧ W.L.startN 0 = 0 ∧ W.L.startN 1 = 0 ∧ W.L.endN 0 = 1 ∧
      W.L.endN 1 = 1 ∧ W.L.capIn 0 ≠ 0 ∧ W.L.capIn 1 ≠ 0 ∧ W.L.toll 0 W.now = 0 ∧ W.L.toll 1 W.now = 0 ∧
      W.cfg.duoNoise = 0) && (match W.tick with
        | .ok W' => decide (0 < (W'.L.ttInstant 0).headD 0 ∧ 0 < (W'.L.ttInstant 1).headD 0)
        | .error _ => false)) = true := by
    decide +kernel
  obtain ⟨W, h1, h2⟩ := obs_ok h
  simp only [Bool.and_eq_true, decide_eq_true_eq] at h2
  obtain ⟨⟨a1, a2, a3, a4, a5, a6, a7, a8, a9, a10, a11, a12, a13⟩, h3⟩ := h2
  split at h3
  · rename_i W' ht
    simp only [decide_eq_true_eq] at h3
    have hr := runCmds_reachable h1
    have hcfg : W.cfg.dijkstra = lineSearch := by rw [runCmds_cfg h1]; rfl
    have hop : ∀ i j, OpenHop W i j ↔ i = 0 ∧ j = 1 := by
      intro i j
      have hp : parallel W i j = if i = 0 ∧ j = 1 then [0, 1] else [] := by
        unfold parallel
        rw [a3]
        by_cases e : i = 0 ∧ j = 1
        · obtain ⟨rfl, rfl⟩ := e
          simp [List.range_succ, a5, a6, a7, a8]
        · rw [if_neg e]
          simp only [List.filter_eq_nil_iff, Bool.and_eq_true, decide_eq_true_eq]
          intro l hl
          have : l = 0 ∨ l = 1 := by
            have : l < 2 := List.mem_range.1 hl
            interval_cases l <;> simp
          rcases this with rfl | rfl
          · rw [a5, a7]; rintro ⟨rfl, rfl⟩; exact e ⟨rfl, rfl⟩
          · rw [a6, a8]; rintro ⟨rfl, rfl⟩; exact e ⟨rfl, rfl⟩
      unfold OpenHop
      rw [hp]
      by_cases e : i = 0 ∧ j = 1
      · rw [if_pos e]; simp [e, a9, a10]
      · rw [if_neg e]; simp [e]
    refine ⟨W, W', hr, ht, ?_⟩
    have l2 : ∀ {P : LinkId → Prop}, P 0 → P 1 → ∀ l < W.nLinks, P l := by
      intro P p0 p1 l hl
      rw [a3] at hl
      have : l = 0 ∨ l = 1 := by omega
      rcases this with rfl | rfl
      · exact p0
      · exact p1
    have := C31_step (i := 0) (k := 1) hr a1 ht (by rw [a4]; exact Nat.zero_mod _) ?_ (by rw [a13])
      (l2 h3.1 h3.2) (l2 (by rw [a11]) (by rw [a12])) (by rw [a2]; decide) (by rw [a2]; decide)
      (.single ((hop 0 1).2 ⟨rfl, rfl⟩))
    · rw [a2] at this; exact this
    · intro c _ hc
      rw [a2, hcfg]
      exact lineSearch_ok c (fun i j => (hc i j).trans (hop i j))
  · cases h3

/-! ## C30: shared preferences -/

/-- The weight given to the current shortest paths by one update. -/
def updateWeight (c : Config) : ℚ :=
  if c.gradual then c.duoUpdateWeight * (c.deltat / c.duoUpdateTime) else c.duoUpdateWeight

theorem duoUpdate_range {W : World} (hw0 : 0 ≤ updateWeight W.cfg) (hw1 : updateWeight W.cfg ≤ 1)
    (h : ∀ k l, 0 ≤ W.R.pref k l ∧ W.R.pref k l ≤ 1) :
    ∀ k l, 0 ≤ W.duoUpdate.R.pref k l ∧ W.duoUpdate.R.pref k l ≤ 1 := by
  intro k l
  have hw : 0 ≤ W.duoWeight k ∧ W.duoWeight k ≤ 1 := by
    unfold duoWeight
    unfold updateWeight at hw0 hw1
    split
    · norm_num
    · split
      · rename_i hg; rw [if_pos hg] at hw0 hw1; exact ⟨hw0, hw1⟩
      · rename_i hg; rw [if_neg hg] at hw0 hw1; exact ⟨hw0, hw1⟩
  have hn : W.heteroNew k l = 0 ∨ W.heteroNew k l = 1 := by
    unfold heteroNew; split <;> simp
  obtain ⟨p0, p1⟩ := h k l
  show 0 ≤ (if k < W.nNodes ∧ l < W.nLinks then
      W.R.pref k l * (1 - W.duoWeight k) + W.duoWeight k * W.heteroNew k l
    else W.R.pref k l) ∧ _ ≤ (1:ℚ)
  show _ ∧ (if k < W.nNodes ∧ l < W.nLinks then
      W.R.pref k l * (1 - W.duoWeight k) + W.duoWeight k * W.heteroNew k l
    else W.R.pref k l) ≤ (1:ℚ)
  split
  · rcases hn with e | e <;> rw [e] <;> constructor <;> nlinarith [mul_nonneg p0 (sub_nonneg.2 hw.2)]
  · exact ⟨p0, p1⟩

theorem duoUpdate_path {W : World} (hw1 : updateWeight W.cfg ≤ 1)
    (h : ∀ k l, 0 ≤ W.R.pref k l ∧ W.R.pref k l ≤ 1) (hw0 : 0 ≤ updateWeight W.cfg) {k : NodeId} {l : LinkId}
    (hk : k < W.nNodes) (hl : l < W.nLinks)
    (hnx : W.R.next (W.L.startN l) k = some (W.L.endN l)) :
    updateWeight W.cfg ≤ W.duoUpdate.R.pref k l := by
  show _ ≤ (if k < W.nNodes ∧ l < W.nLinks then
      W.R.pref k l * (1 - W.duoWeight k) + W.duoWeight k * W.heteroNew k l
    else W.R.pref k l)
  rw [if_pos ⟨hk, hl⟩, show W.heteroNew k l = 1 by unfold heteroNew; rw [if_pos hnx]]
  obtain ⟨p0, p1⟩ := h k l
  have hd : W.duoWeight k = 1 ∨ W.duoWeight k = updateWeight W.cfg := by
    unfold duoWeight updateWeight
    split
    · exact .inl rfl
    · exact .inr rfl
  rcases hd with e | e <;> rw [e]
  · simpa using hw1
  · nlinarith [mul_nonneg p0 (sub_nonneg.2 hw1)]

/-- What a step does to the shared preferences. -/
theorem tick_pref {W W' : World} (hi : Inv W) (hf : W.finalized = true) (ht : W.tick = .ok W') :
    (W'.R.pref = W.R.pref ∧ W.cfg.gradual = false ∧ W.T % W.cfg.deltatRoute ≠ 0) ∨
    ((W.cfg.gradual = true ∨ W.T % W.cfg.deltatRoute = 0) ∧
      ∃ X : World, X.cfg = W.cfg ∧ X.nNodes = W.nNodes ∧ X.nLinks = W.nLinks ∧
        X.L.startN = W.L.startN ∧ X.L.endN = W.L.endN ∧
        X.R.pref = W.R.pref ∧ X.R.next = W'.R.next ∧ W'.R.pref = X.duoUpdate.R.pref) := by
  obtain ⟨W0, h0, rfl⟩ := tick_ok ht
  obtain ⟨W1, W2, W3, W4, W5, W6, hp, rfl⟩ := step_phases (hi.core hf) h0
  have st : Static W W5 := (((hp.s1.static.trans hp.s2.static).trans hp.s3.static).trans
    hp.s4.static).trans hp.s5.static
  have hR := hp.R
  show (W6.R.pref = W.R.pref ∧ _ ∧ _) ∨ (_ ∧ ∃ X : World, _ ∧ _ ∧ _ ∧ _ ∧ _ ∧ _ ∧ X.R.next = W6.R.next ∧
    W6.R.pref = X.duoUpdate.R.pref)
  by_cases hdue : W.T % W.cfg.deltatRoute = 0
  · right
    obtain ⟨V, hV, e1, e2, e3⟩ := routeStep_search (by rw [st.T, st.cfg]; exact hdue) hp.p6
    obtain ⟨f1, f2, f3, f4, f5, f6, f7⟩ := routeSearchAll_frame hV
    refine ⟨.inr hdue, V, by rw [f5, st.cfg], by rw [f4, st.nNodes], by rw [f3, st.nLinks],
      by rw [f1, st.startN], by rw [f1, st.endN], by rw [f6, hR], by rw [e1]; rfl, by rw [e1]⟩
  · have hr := hp.p6
    unfold routeStep at hr
    rw [st.T, st.cfg] at hr
    split at hr
    · rename_i hg
      right
      dsimp only at hr
      rw [pure_bind, pure_ok] at hr
      subst hr
      exact ⟨.inl hg, W5, st.cfg, st.nNodes, st.nLinks, st.startN, st.endN, by rw [hR], rfl, rfl⟩
    · rename_i hg
      rw [pure_ok] at hr
      subst hr
      exact .inl ⟨by rw [hR], by simpa using hg, hdue⟩

theorem addDest_soft_R {W W' : World} (h : ApiStep W W') (hi : Inv W) :
    (W'.R = W.R) ∨ (W.finalized = false ∧ (W'.R.pref = fun _ _ => 0) ∧ W'.R.record = fun _ => none) ∨
      (W.finalized = true ∧ W.tick = .ok W') := by
  cases h with
  | addNode hf h =>
    obtain ⟨ph, t, soff, _, hn, rfl⟩ := addNode_ok h
    left; rfl
  | addLink hf h =>
    obtain ⟨s, e, nm, k, p, -, -, -, -, -, -, rfl⟩ := addLink_ok h
    left; rfl
  | addVehicle h =>
    obtain ⟨o, d, dep, pref, cache, lp, la, nm, -, -, -, -, -, -, -, -, rfl⟩ := addVehicle_ok h
    left; rfl
  | @finalize tm hf =>
    obtain ⟨ts, tta, fc, fr, la, hr⟩ := finalize_frame W tm
    rw [hr]
    right; left; exact ⟨hf, rfl, rfl⟩
  | tick hf hT h => exact .inr (.inr ⟨hf, h⟩)
  | endExec hf => left; rfl
  | overrideSignal => left; rfl
  | overrideSignalGroups _ h =>
    unfold World.overrideSignalGroups at h
    split at h
    · simp at h
    · split at h
      · simp at h
      · simp only [Except.ok.injEq] at h
        subst h
        left; rfl
  | enforceRoute _ h =>
    unfold World.enforceRoute at h
    rw [bind_ok] at h
    obtain ⟨r, _, h⟩ := h
    simp only [pure_ok] at h
    subst h
    left; rfl
  | setLinksPrefer _ h =>
    unfold World.setLinksPrefer at h
    rw [bind_ok] at h
    obtain ⟨r, _, h⟩ := h
    simp only [pure_ok] at h
    subst h
    left; rfl
  | setLinksAvoid _ h =>
    unfold World.setLinksAvoid at h
    rw [bind_ok] at h
    obtain ⟨r, _, h⟩ := h
    simp only [pure_ok] at h
    subst h
    left; rfl
  | addDest _ _ h => exact .inl (addDest_R h)
  | addTripRequest h =>
    unfold World.addTripRequest at h
    rw [bind_ok] at h
    obtain ⟨_, _, h⟩ := h
    rw [bind_ok] at h
    obtain ⟨_, _, h⟩ := h
    simp only [pure_ok] at h
    subst h
    left; rfl
  | @assignTaxi _ v r _ h =>
    unfold World.assignTaxi at h
    split at h
    · simp at h
    · rw [bind_ok] at h
      obtain ⟨W1, h1, h⟩ := h
      simp only [pure_ok] at h
      subst h
      left
      show W1.R = W.R
      exact addDest_R h1
  | setCapOut => left; rfl
  | setCapIn => left; rfl
  | changeFreeFlowSpeed hl h =>
    unfold World.changeFreeFlowSpeed at h
    left
    split at h
    · dsimp only at h
      split at h
      · cases h
      · split at h
        · cases h
        · simp only [Except.ok.injEq] at h
          subst h
          rfl
    · simp only [Except.ok.injEq] at h
      subst h
      rfl
  | changeJamDensity hl _ h =>
    unfold World.changeJamDensity at h
    left
    split at h
    · dsimp only at h
      split at h
      · cases h
      · split at h
        · cases h
        · simp only [Except.ok.injEq] at h
          subst h
          rfl
    · simp only [Except.ok.injEq] at h
      subst h
      rfl
  | reseed => left; rfl

/-- Shared preferences are always in `[0, 1]` when the weight of an update is. -/
theorem pref_range {W : World} (h : Reachable Any W) (hw0 : 0 ≤ updateWeight W.cfg)
    (hw1 : updateWeight W.cfg ≤ 1) : ∀ k l, 0 ≤ W.R.pref k l ∧ W.R.pref k l ≤ 1 := by
  induction h with
  | new => intro k l; exact ⟨le_rfl, zero_le_one⟩
  | @next W W' hr hs _ ih =>
    have hc := hs.cfg hr.inv
    rw [hc] at hw0 hw1
    have ih := ih hw0 hw1
    rcases addDest_soft_R hs hr.inv with e | ⟨-, e, -⟩ | ⟨hf, ht⟩
    · rw [e]; exact ih
    · rw [e]; intro k l; exact ⟨le_rfl, zero_le_one⟩
    · rcases tick_pref hr.inv hf ht with ⟨e, -⟩ | ⟨-, X, x1, -, -, -, -, x2, -, x3⟩
      · rw [e]; exact ih
      · rw [x3]
        exact duoUpdate_range (by rw [x1]; exact hw0) (by rw [x1]; exact hw1) (by rw [x2]; exact ih)

/-- With `DUO_UPDATE_WEIGHT` in `[0, 1]` every shared preference is always in `[0, 1]`. In gradual
mode the weight is scaled by `DELTAT / DUO_UPDATE_TIME`, and the step must not be longer than the
update time (`C30_gradual_false`). -/
theorem C30_range {W : World} (h : Reachable Any W) (hw0 : 0 ≤ W.cfg.duoUpdateWeight)
    (hw1 : W.cfg.duoUpdateWeight ≤ 1)
    (hg : W.cfg.gradual = true → 0 ≤ W.cfg.deltat ∧ 0 < W.cfg.duoUpdateTime ∧
      W.cfg.deltat ≤ W.cfg.duoUpdateTime) :
    ∀ k l, 0 ≤ W.R.pref k l ∧ W.R.pref k l ≤ 1 := by
  have key : 0 ≤ updateWeight W.cfg ∧ updateWeight W.cfg ≤ 1 := by
    unfold updateWeight
    split
    · rename_i hgr
      obtain ⟨g1, g2, g3⟩ := hg hgr
      have a : 0 ≤ W.cfg.deltat / W.cfg.duoUpdateTime := by positivity
      have b : W.cfg.deltat / W.cfg.duoUpdateTime ≤ 1 := (div_le_one g2).2 g3
      exact ⟨mul_nonneg hw0 a, mul_le_one₀ hw1 a b⟩
    · exact ⟨hw0, hw1⟩
  exact pref_range h key.1 key.2

/-- Right after an update (every `DELTAT_ROUTE` steps, or every step in gradual mode) each link on
a current shortest path has at least the weight of the update. -/
theorem C30_path {W W' : World} (h : Reachable Any W) (hf : W.finalized = true)
    (ht : W.tick = .ok W') (hdue : W.cfg.gradual = true ∨ W.T % W.cfg.deltatRoute = 0)
    (hw0 : 0 ≤ updateWeight W.cfg) (hw1 : updateWeight W.cfg ≤ 1) {k : NodeId} {l : LinkId}
    (hk : k < W.nNodes) (hl : l < W.nLinks) (hnx : W'.R.next (W.L.startN l) k = some (W.L.endN l)) :
    updateWeight W.cfg ≤ W'.R.pref k l := by
  have hr := pref_range h hw0 hw1
  rcases tick_pref h.inv hf ht with ⟨-, e1, e2⟩ | ⟨-, X, x1, x2, x3, x4, x5, x6, x7, x8⟩
  · rcases hdue with hd | hd
    · rw [hd] at e1; cases e1
    · exact absurd hd e2
  · rw [x8, ← x1]
    exact duoUpdate_path (by rw [x1]; exact hw1) (by rw [x6]; exact hr) (by rw [x1]; exact hw0)
      (by rw [x2]; exact hk) (by rw [x3]; exact hl) (by rw [x4, x5, x7]; exact hnx)

/-- Between updates nothing changes. -/
theorem C30_between {W W' : World} (h : Reachable Any W) (hf : W.finalized = true)
    (ht : W.tick = .ok W') (hg : W.cfg.gradual = false) (hdue : W.T % W.cfg.deltatRoute ≠ 0) :
    W'.R.pref = W.R.pref := by
  rcases tick_pref h.inv hf ht with ⟨e, -⟩ | ⟨e | e, -⟩
  · exact e
  · rw [hg] at e; cases e
  · exact absurd e hdue

/-- The links of `parallelDemo` are on the shortest path and get the weight. -/
example : obs (runCmds lineCfg (fun _ => 0) (parallelDemo 1)) (fun W => decide
    (W.R.pref 1 0 = 1 ∧ W.R.pref 1 1 = 1 ∧ W.R.pref 0 0 = 0 ∧ updateWeight W.cfg = 1/2)) = true := by
  decide +kernel

/-- A network `a → b` and `a → c → b`; the routine uses the direct link unless it is closed. -/
def detourSearch (_ : ℕ) (c : NodeId → NodeId → Option ℚ) :
    (NodeId → NodeId → Option ℚ) × (NodeId → NodeId → Option NodeId) :=
  (fun _ _ => some 0, fun i k => if i = 0 ∧ k = 1 then (if c 0 1 = none then some 2 else some 1)
    else if i = 2 ∧ k = 1 then some 1 else none)

def detourCfg : Config := { demoCfg with dijkstra := detourSearch, gradual := true, duoUpdateTime := 1 }

def detourDemo : List Cmd :=
  [.node { name := "a" }, .node { name := "b" }, .node { name := "c" },
   .link { startN := .obj 0, endN := .obj 1, length := 200 },
   .link { startN := .obj 0, endN := .obj 2, length := 200 },
   .link { startN := .obj 2, endN := .obj 1, length := 200 },
   .fin (some 300), .tick, .capIn 0 0, .tick]

/-- In gradual mode with a step longer than the update time, preferences leave `[0, 1]`, although
`DUO_UPDATE_WEIGHT` is `1/2`. -/
theorem C30_gradual_false : ∃ W, Reachable Any W ∧ W.cfg.duoUpdateWeight = 1/2 ∧ W.R.pref 1 0 < 0 ∧
    1 < W.R.pref 1 1 := by
  have h : obs (runCmds detourCfg (fun _ => 0) detourDemo) (fun W => decide
    (W.cfg.duoUpdateWeight = 1/2 ∧ W.R.pref 1 0 < 0 ∧ 1 < W.R.pref 1 1)) = true := by decide +kernel
  obtain ⟨W, h1, h2⟩ := obs_ok h
  exact ⟨W, runCmds_reachable h1, of_decide_eq_true h2⟩

end UX
