import Verif.Proofs.CppBasic
import Verif.Proofs.CppDijkstra
import Verif.Model.CppBuild
import Verif.Props.Kinematics
import Mathlib.Data.Finset.Card
import Mathlib.Data.Finset.Range
import Mathlib.Tactic.FieldSimp

/-!
# C77: the shortest-path search of the C++ engine
-/

namespace UX
open Cpp Cpp.Spec Cpp.CWorld

/-- **C77.** `route_search_all` computes shortest distances: the distance of `v` from `s` is `d` iff
`d` is the least cost of a walk, and infinite iff there is no walk. It holds with any monotone
rounding, costs being added from the source. -/
theorem C77_distance {fl : ℚ → ℚ} (hfl : FlOK fl) {n : ℕ} (adj : ℕ → ℕ → Option ℚ) {s : ℕ}
    (hs : s < n) (v : ℕ) :
    (∀ d, (dijkstra fl n adj s).dist v = some d ↔ IsDist fl n adj s v d) ∧
    ((dijkstra fl n adj s).dist v = none ↔ ∀ c, ¬ Walk fl n adj s v c) := by
  obtain ⟨⟨u0, h⟩, _⟩ := dijkstra_inv hfl adj hs
  have h1 : ∀ d, (dijkstra fl n adj s).dist v = some d → IsDist fl n adj s v d := by
    intro d hd
    refine ⟨found_walk (h.found v d hd).2.2.2, fun c hc => ?_⟩
    obtain ⟨d', hd', hle⟩ := dijkstra_le hfl hs hc
    rw [hd] at hd'
    rw [Option.some.inj hd']; exact hle
  refine ⟨fun d => ⟨h1 d, ?_⟩, ⟨?_, ?_⟩⟩
  · rintro ⟨hw, hmin⟩
    obtain ⟨d', hd', hle⟩ := dijkstra_le hfl hs hw
    have := hmin d' (h1 d' hd').1
    rw [hd', le_antisymm hle this]
  · intro hn c hc
    obtain ⟨d', hd', _⟩ := dijkstra_le hfl hs hc
    rw [hn] at hd'; simp at hd'
  · intro hno
    cases hd : (dijkstra fl n adj s).dist v with
    | none => rfl
    | some d => exact absurd (h1 d hd).1 (hno d)

/-- **C77.** The next hop of `v ≠ s` starts a walk of least cost; unreachable nodes have none; the
source is its own next hop. -/
theorem C77_next {fl : ℚ → ℚ} (hfl : FlOK fl) {n : ℕ} (adj : ℕ → ℕ → Option ℚ) {s : ℕ}
    (hs : s < n) (v : ℕ) :
    (∀ d, v ≠ s → IsDist fl n adj s v d →
      ∃ h, (dijkstra fl n adj s).next v = some h ∧ WalkVia fl n adj s h v d) ∧
    ((∀ c, ¬ Walk fl n adj s v c) → (dijkstra fl n adj s).next v = none) ∧
    (dijkstra fl n adj s).next s = some s := by
  obtain ⟨⟨u0, h⟩, _⟩ := dijkstra_inv hfl adj hs
  refine ⟨?_, ?_, ?_⟩
  · intro d hne hd
    rcases (h.found v d (((C77_distance hfl adj hs v).1 d).2 hd)).2.2.2 with ⟨e, _⟩ | ⟨_, hx⟩
    · exact absurd e hne
    · exact hx
  · intro hno
    exact h.none_next v ((C77_distance hfl adj hs v).2.2 hno)
  · obtain ⟨d, hd⟩ := h.zero
    rcases (h.found s d hd).2.2.2 with ⟨_, _, e⟩ | ⟨e, _⟩
    · exact e
    · exact absurd rfl e

/-- **C77.** The search stops by itself: the bound on the number of `pop`s in the model is never
reached, and any larger bound gives the same result. -/
theorem C77_terminates {fl : ℚ → ℚ} (hfl : FlOK fl) {n : ℕ} (adj : ℕ → ℕ → Option ℚ) {s : ℕ}
    (hs : s < n) :
    (dijkstra fl n adj s).pq = [] ∧ ∀ k, n * n + 1 ≤ k →
      dijLoop fl n adj s k (CDij.mk (upd (fun _ => none) s (some 0)) (upd (fun _ => none) s (some s))
        (fun _ => false) [(0, s)]) = dijkstra fl n adj s := by
  have hp := (dijkstra_inv hfl adj hs).2
  refine ⟨hp, fun k hk => ?_⟩
  have key : ∀ (a b : ℕ) (D : CDij), (dijLoop fl n adj s a D).pq = [] →
      dijLoop fl n adj s (a + b) D = dijLoop fl n adj s a D := by
    intro a b
    induction a with
    | zero =>
      intro D hD
      have hD : D.pq = [] := hD
      cases b with
      | zero => rfl
      | succ b =>
        rw [Nat.zero_add]
        unfold dijLoop
        simp [hD, pqTop]
    | succ a ih =>
      intro D hD
      rw [Nat.add_right_comm]
      unfold dijLoop at hD ⊢
      cases hq : pqTop D.pq with
      | none => rfl
      | some p =>
        simp only [hq] at hD ⊢
        split
        · rename_i hc
          rw [if_pos hc] at hD
          exact ih _ hD
        · rename_i hc
          rw [if_neg hc] at hD
          exact ih _ hD
  obtain ⟨b, rfl⟩ := Nat.exists_eq_add_of_le hk
  exact key _ b _ hp

/-! ## Exact arithmetic -/

theorem walk_lt {n : ℕ} {adj : ℕ → ℕ → Option ℚ} {s v : ℕ} {c : ℚ} (hs : s < n)
    (hw : Walk id n adj s v c) : v < n := by
  cases hw with
  | nil => exact hs
  | snoc _ he => exact he.1

theorem walk_trans {n : ℕ} {adj : ℕ → ℕ → Option ℚ} {s h v : ℕ} {w c : ℚ} (he : Edge n adj s h w)
    (hw : Walk id n adj h v c) : Walk id n adj s v (w + c) := by
  induction hw with
  | nil =>
    have := Walk.snoc (fl := id) (Walk.nil (n := n) (adj := adj) (s := s)) he
    simpa using this
  | snoc _ he' ih =>
    have := Walk.snoc ih he'
    simpa [add_assoc] using this

theorem walkVia_split {n : ℕ} {adj : ℕ → ℕ → Option ℚ} {s h v : ℕ} {c : ℚ}
    (hw : WalkVia id n adj s h v c) : ∃ w c', Edge n adj s h w ∧ Walk id n adj h v c' ∧ c = w + c' := by
  induction hw with
  | one he => exact ⟨_, 0, he, Walk.nil, by simp⟩
  | snoc _ he ih =>
    obtain ⟨w, c', h1, h2, h3⟩ := ih
    exact ⟨w, _, h1, Walk.snoc h2 he, by rw [h3]; simp [add_assoc]⟩

/-- **C77.** With exact arithmetic the tables of different sources fit together: the distance is the
weight of the first edge plus the distance from the next hop. -/
theorem C77_step {n : ℕ} (adj : ℕ → ℕ → Option ℚ) {s : ℕ} (hs : s < n) {v : ℕ} (hv : v ≠ s) {d : ℚ}
    (hd : (dijkstra id n adj s).dist v = some d) :
    ∃ h w d', (dijkstra id n adj s).next v = some h ∧ h < n ∧ adj s h = some w ∧ 0 < w ∧
      (dijkstra id n adj h).dist v = some d' ∧ d = w + d' := by
  have hD := ((C77_distance flOK_id adj hs v).1 d).1 hd
  obtain ⟨h, hn, hw⟩ := (C77_next flOK_id adj hs v).1 d hv hD
  obtain ⟨w, c', he, hw', hc⟩ := walkVia_split hw
  refine ⟨h, w, c', hn, he.1, he.2.1, he.2.2, ?_, hc⟩
  refine ((C77_distance flOK_id adj he.1 v).1 c').2 ⟨hw', fun c hcw => ?_⟩
  have := hD.2 _ (walk_trans he hcw)
  rw [hc] at this
  linarith

theorem iter_one (f : ℕ → ℕ) (x : ℕ) : ∀ k, f^[k + 1] x = f^[k] (f x) := fun _ => rfl

/-- **C77.** Following the next hops towards a reachable node gets there. -/
theorem C77_follow {n : ℕ} (adj : ℕ → ℕ → Option ℚ) {s : ℕ} (hs : s < n) (v : ℕ) {d : ℚ}
    (hd : (dijkstra id n adj s).dist v = some d) :
    ∃ k, (fun x => ((dijkstra id n adj x).next v).getD x)^[k] s = v := by
  classical
  -- induction on the number of nodes that are nearer to `v`
  let near : ℚ → ℕ := fun d => ((Finset.range n).filter (fun x =>
    ∃ d', (dijkstra id n adj x).dist v = some d' ∧ d' < d)).card
  suffices H : ∀ m s d, s < n → (dijkstra id n adj s).dist v = some d → near d = m →
      ∃ k, (fun x => ((dijkstra id n adj x).next v).getD x)^[k] s = v from H _ s d hs hd rfl
  intro m
  induction m using Nat.strong_induction_on with
  | _ m ih =>
    intro s d hs hd hm
    by_cases hv : v = s
    · exact ⟨0, hv.symm⟩
    · obtain ⟨h, w, d', hn, hh, hw, hpos, hd', hsum⟩ := C77_step adj hs hv hd
      have hlt : near d' < m := by
        rw [← hm]
        apply Finset.card_lt_card
        refine ⟨?_, ?_⟩
        · intro x hx
          simp only [Finset.mem_filter] at hx ⊢
          obtain ⟨hx1, e, he, hlt⟩ := hx
          exact ⟨hx1, e, he, by linarith⟩
        · intro hsub
          have := hsub (Finset.mem_filter.2 ⟨Finset.mem_range.2 hh, d', hd', by linarith⟩)
          simp only [Finset.mem_filter] at this
          obtain ⟨_, e, he, hlt⟩ := this
          rw [hd'] at he
          rw [← Option.some.inj he] at hlt
          exact lt_irrefl _ hlt
      obtain ⟨k, hk⟩ := ih _ hlt h d' hh hd' rfl
      refine ⟨k + 1, ?_⟩
      rw [iter_one]
      simp only [hn, Option.getD_some]
      exact hk

/-- A network with a detour that is shorter than the direct edge, and an unreachable node. -/
def c77adj : ℕ → ℕ → Option ℚ
  | 0, 1 => some 2
  | 1, 2 => some 3
  | 0, 2 => some 9
  | 2, 0 => some 1
  | 3, 0 => some 1
  | 1, 3 => none
  | _, _ => some 0

example : ((dijkstra id 4 c77adj 0).dist 2, (dijkstra id 4 c77adj 0).next 2,
    (dijkstra id 4 c77adj 0).dist 3, (dijkstra id 4 c77adj 0).next 3,
    (dijkstra id 4 c77adj 3).dist 2) = (some 5, some 1, none, none, some 6) := by
  decide +kernel

/-! ## The cost matrix -/

/-- The links from `i` to `j`, by id. -/
def parallelLinks (W : CWorld) (i j : ℕ) : List ℕ :=
  (List.range W.g.nLinks).filter (fun l => decide ((W.link l).src = i ∧ (W.link l).dst = j))

/-- **C78.** With exact arithmetic the cost of going from `i` to `j` is the mean of the costs of the
links from `i` to `j`; it is infinite if one of them has an inflow capacity of 0, and 0 (no edge) if
there is no link. -/
theorem C78_cost (W : CWorld) (hfl : W.g.fl = id) (i j : ℕ) :
    W.updateAdj.g.adj i j =
      if ∃ l ∈ parallelLinks W i j, (W.link l).capIn = 0 then none
      else some (((parallelLinks W i j).map W.linkCost).sum / (parallelLinks W i j).length) := by
  have key : ∀ m, let acc := (List.range m).foldl W.adjStep { adj := fun _ _ => some 0, cnt := fun _ _ => 0 }
      let ls := (List.range m).filter (fun l => decide ((W.link l).src = i ∧ (W.link l).dst = j))
      acc.cnt i j = ls.length ∧ acc.adj i j = if ∃ l ∈ ls, (W.link l).capIn = 0 then none
        else some ((ls.map W.linkCost).sum / ls.length) := by
    intro m
    induction m with
    | zero => simp
    | succ m ih =>
      simp only at ih ⊢
      obtain ⟨ih1, ih2⟩ := ih
      rw [List.range_succ, List.foldl_append, List.filter_append]
      set acc := (List.range m).foldl W.adjStep { adj := fun _ _ => some 0, cnt := fun _ _ => 0 }
      set ls := (List.range m).filter (fun l => decide ((W.link l).src = i ∧ (W.link l).dst = j))
      simp only [List.foldl_cons, List.foldl_nil, adjStep, hfl, id]
      by_cases hm : (W.link m).src = i ∧ (W.link m).dst = j
      · obtain ⟨hi, hj⟩ := hm
        simp only [hi, hj, upd_same, and_self, decide_true, List.filter_cons_of_pos,
          List.filter_nil, List.length_append, List.length_cons, List.length_nil, ih1, Nat.zero_add]
        refine ⟨trivial, ?_⟩
        by_cases hc : (W.link m).capIn = 0
        · rw [if_pos hc, if_pos ⟨m, by simp, hc⟩]
        · rw [if_neg hc, ih2]
          by_cases hex : ∃ l ∈ ls, (W.link l).capIn = 0
          · rw [if_pos hex, if_pos]
            · rfl
            · obtain ⟨l, h1, h2⟩ := hex
              exact ⟨l, List.mem_append_left _ h1, h2⟩
          · rw [if_neg hex, if_neg]
            · simp only [Option.map_some, List.map_append, List.sum_append, List.map_cons,
                List.map_nil, List.sum_cons, List.sum_nil, add_zero, Option.some.injEq]
              push_cast
              rcases Nat.eq_zero_or_pos ls.length with h0 | hpos
              · have : ls = [] := List.length_eq_zero_iff.1 h0
                simp [this]
              · have hne : (ls.length : ℚ) ≠ 0 := by exact_mod_cast hpos.ne'
                have hne' : (ls.length : ℚ) + 1 ≠ 0 := by positivity
                field_simp
            · rintro ⟨l, hl, h0⟩
              rcases List.mem_append.1 hl with h | h
              · exact hex ⟨l, h, h0⟩
              · rw [List.mem_singleton.1 h] at h0; exact hc h0
      · have hf : decide ((W.link m).src = i ∧ (W.link m).dst = j) = false := by simpa using hm
        rw [List.filter_cons_of_neg (by simpa using hm), List.filter_nil, List.append_nil, ← ih2, ← ih1]
        have hne : ∀ {β : Type} (f : ℕ → ℕ → β) (b : β),
            upd f (W.link m).src (upd (f (W.link m).src) (W.link m).dst b) i j = f i j := by
          intro β f b
          by_cases h1 : i = (W.link m).src
          · subst h1
            rw [upd_same, upd_ne]
            intro h2; exact hm ⟨rfl, h2.symm⟩
          · rw [upd_ne _ _ h1]
        exact ⟨hne _ _, hne _ _⟩
  exact (key W.g.nLinks).2

/-- A link of 1000 m with the given inflow capacity (negative: unlimited). -/
def c78args (capIn : ℚ) : LinkArgs :=
  { vmax := 20, kappa := 1/5, len := 1000, lanes := 1, mergePri := 1, capOut := -1, capIn := capIn,
    group := [0], rng := fun _ => 0 }

/-- Two nodes and two parallel links, the second twice as slow and with inflow capacity `c`. -/
def c78world (c : ℚ) : CWorld :=
  let W0 := CWorld.empty id 600 5 1 600 (1/2) 0 true false false false false 1
  let W1 := ((W0.addNodeWith (0, 0) [0] 0 (-1) 0 (fun _ => 0)).addNodeWith (0, 0) [0] 0 (-1) 0
    (fun _ => 0))
  (W1.addLink 0 1 (c78args (-1))).addLink 0 1 { c78args c with vmax := 10 }

example : ((c78world (-1)).updateAdj.g.adj 0 1, (c78world (-1)).updateAdj.g.adj 1 0) =
    (some 75, some 0) := by decide +kernel

/-- **C78.** Closing one of two parallel links (`capacity_in = 0`) makes the other one unusable for
route search as well, like in the Python engine (`C32_false`). -/
theorem C78_closed_false : ∃ W : CWorld, CReach W ∧ W.g.fl = id ∧
    (W.link 0).capIn ≠ 0 ∧ (W.link 0).src = 0 ∧ (W.link 0).dst = 1 ∧ W.updateAdj.g.adj 0 1 = none := by
  refine ⟨c78world 0, ?_, rfl, by decide +kernel, rfl, rfl, by decide +kernel⟩
  refine CReach.step ?_ (CStep.link _ 0 1 { c78args 0 with vmax := 10 } (by decide) (by decide) (by decide) (by decide))
  refine CReach.step ?_ (CStep.link _ 0 1 (c78args (-1)) (by decide) (by decide) (by decide) (by decide))
  refine CReach.step ?_ (CStep.node _ _ [0] 0 (-1) 0 (fun _ => 0) 1 rfl)
  refine CReach.step ?_ (CStep.node _ _ [0] 0 (-1) 0 (fun _ => 0) 1 rfl)
  exact CReach.empty id 600 5 1 600 (1/2) 0 true false false false false 1

/-- **C78.** What a link costs: its travel time, up to `route_choice_uncertainty` more by chance, and its
toll. -/
theorem C78_link (W : CWorld) (hfl : W.g.fl = id) (hn : 0 ≤ W.g.noise) (l : ℕ) :
    ∃ tt toll eps, LinkPrice W l tt toll ∧ 0 ≤ eps ∧ eps ≤ W.g.noise ∧ (W.g.hardDet = true → eps = 0) ∧
      (0 < W.g.noise → eps < W.g.noise) ∧ W.linkCost l = tt * (1 + eps) + toll := by
  have hu : 0 ≤ unitDraw ((W.link l).rng 0) ∧ unitDraw ((W.link l).rng 0) < 1 := by
    unfold unitDraw
    have := Nat.mod_lt ((W.link l).rng 0) (show 0 < 2 ^ 53 by norm_num)
    have h' : ((((W.link l).rng 0) % 2 ^ 53 : ℕ) : ℚ) < 2 ^ 53 := by exact_mod_cast this
    exact ⟨by positivity, by rw [div_lt_one (by positivity)]; exact h'⟩
  have hp : LinkPrice W l (if (W.link l).ttInst W.g.timestep ≤ 0 then (W.link l).len / (W.link l).vmax
      else (W.link l).ttInst W.g.timestep) (W.penaltyNow l) := by
    refine ⟨fun h => if_neg (not_le.2 h), fun h => if_pos h, fun q h => ?_, fun h => ?_⟩
    · unfold penaltyNow; rw [h]
    · unfold penaltyNow; rw [List.getElem?_eq_none h]
  by_cases hd : W.g.hardDet = true
  · refine ⟨_, _, 0, hp, le_rfl, hn, fun _ => rfl, fun h => h, ?_⟩
    unfold linkCost
    simp [hfl, hd]
  · refine ⟨_, _, W.g.noise * unitDraw ((W.link l).rng 0), hp, mul_nonneg hn hu.1, ?_,
      fun h => absurd h hd, fun h => ?_, ?_⟩
    · nlinarith [hu.1, hu.2]
    · nlinarith [hu.1, hu.2]
    · unfold linkCost
      simp [hfl, hd]

/-- **C78.** The travel time that `Link::update` records: that of the speeds on the link, every
`ttInterval` time steps, in between the value of the time step before. -/
theorem C78_instant (W : CWorld) (hfl : W.g.fl = id) (l : ℕ) :
    ((W.linkUpdate l).link l).ttInst W.g.timestep =
      if W.g.timestep % W.g.ttInterval = 0 then speedTime W l
      else (W.link l).ttInst (W.g.timestep - 1) := by
  have e : ((W.linkUpdate l).link l).ttInst W.g.timestep = W.newTt l := by
    unfold linkUpdate
    rw [setL_link, if_pos rfl]
    simp
  rw [e]
  unfold newTt speedTime
  simp only
  have hsum : ∀ (xs : List ℚ) (a : ℚ), xs.foldl (fun s q => W.g.fl (s + q)) a = a + xs.sum := by
    intro xs
    induction xs with
    | nil => simp
    | cons x t ih =>
      intro a
      rw [List.foldl_cons, ih, List.sum_cons, hfl]
      show a + x + t.sum = _
      ring
  by_cases hm : W.g.timestep % W.g.ttInterval = 0
  · rw [if_neg (by simpa using hm), if_pos hm, hsum]
    have hmap : (W.link l).vehs.map (fun v => (W.veh v).v) = [] ↔ (W.link l).vehs = [] := by simp
    simp only [hfl, id, zero_add, List.length_map, hmap]
    by_cases hq : (W.link l).vehs = []
    · rw [if_neg (not_not.2 hq), if_pos hq]
    · rw [if_pos hq, if_neg hq]
      have hlen : (0 : ℚ) < (W.link l).vehs.length := by
        exact_mod_cast List.length_pos_iff.2 hq
      by_cases hs : 0 < ((W.link l).vehs.map (fun v => (W.veh v).v)).sum
      · rw [if_pos hs, if_pos (div_pos hs hlen)]
      · rw [if_neg hs, if_neg]
        intro h
        exact hs (by rcases (div_pos_iff.1 h) with h' | h'
                     · exact h'.1
                     · linarith [h'.2])
  · rw [if_pos hm, if_neg hm]
    split
    · rfl
    · rename_i h
      obtain h0 : W.g.timestep = 0 := by omega
      rw [h0] at hm; simp at hm

/-- A link with two vehicles on it, one of them standing, and an empty one with a toll. -/
example : speedTime (((c78world (-1)).setL 0 (fun L => { L with vehs := [0, 1] })).setV 0
      (fun V => { V with v := 10 })) 0 = 200 ∧
    LinkPrice ((c78world (-1)).setL 0 (fun L => { L with toll := [7] })) 0 50 7 := by
  refine ⟨by decide +kernel, ⟨fun h => ?_, fun _ => by decide +kernel, fun q h => ?_, fun h => ?_⟩⟩
  · exact absurd h (by decide +kernel)
  · have : (some 7 : Option ℚ) = some q := h
    injection this
  · exact absurd h (by decide +kernel)

end UX
