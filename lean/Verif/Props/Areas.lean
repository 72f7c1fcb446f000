import Verif.Proofs.Areas
import Verif.Props.Demand
import Verif.Props.RouteChoice

/-!
# Coordinates and demand between areas (C48, C51, C52)
-/

namespace UX
open World Relation

theorem nodeSqDist_exact {W : World} (hfl : W.cfg.fl = id) (n : NodeId) (x y : ℚ) :
    W.nodeSqDist n x y = W.sq n x y := by
  simp [nodeSqDist, World.sq, World.fl, hfl]

/-- C48, nearest node, as far as it holds: a node that is returned has minimal distance; one is
returned whenever some node is closer than 100 km. Missing: otherwise the answer is `None`, see
`C48_nearest_false`. -/
theorem C48_nearest_partial {W : World} (hfl : W.cfg.fl = id) (x y : ℚ) :
    (∀ n, W.nearestNode x y = some n → n < W.nNodes ∧ ∀ m < W.nNodes, W.sq n x y ≤ W.sq m x y) ∧
    (W.nearestNode x y = none ↔ ∀ m < W.nNodes, (100000 : ℚ) ^ 2 ≤ W.sq m x y) := by
  have h := nearest_fold W x y (List.range W.nNodes) (10 ^ 10, none)
  simp only [nodeSqDist_exact hfl, List.mem_range] at h
  unfold nearestNode
  obtain ⟨-, h2, h3⟩ := h
  refine ⟨fun n hn => ?_, ⟨fun hn m hm => ?_, fun ha => ?_⟩⟩
  · rcases h3 with h3 | ⟨k, hk, h3, -⟩
    · rw [h3] at hn; cases hn
    · rw [h3] at hn h2
      cases hn
      exact ⟨hk, h2⟩
  · rcases h3 with h3 | ⟨k, hk, h3, -⟩
    · rw [h3] at h2
      have := h2 m hm
      norm_num at this ⊢; exact this
    · rw [h3] at hn; cases hn
  · rcases h3 with h3 | ⟨k, hk, -, h4⟩
    · rw [h3]
    · have := ha k hk
      norm_num at this h4; linarith

/-- C48, nearest node, with rounded arithmetic: the node that is returned has the smallest of the
computed squared distances. -/
theorem C48_nearest_rounded {W : World} {x y : ℚ} {n : NodeId} (h : W.nearestNode x y = some n) :
    n < W.nNodes ∧ ∀ m < W.nNodes, W.nodeSqDist n x y ≤ W.nodeSqDist m x y := by
  obtain ⟨-, h2, h3⟩ := nearest_fold W x y (List.range W.nNodes) (10 ^ 10, none)
  simp only [List.mem_range] at h2 h3
  unfold nearestNode at h
  rcases h3 with h3 | ⟨k, hk, h3, -⟩
  · rw [h3] at h; cases h
  · rw [h3] at h h2
    cases h
    exact ⟨hk, h2⟩

/-- C48: exactly the nodes strictly within the radius, in order of creation. -/
theorem C48_area {W : World} (hfl : W.cfg.fl = id) (x y r : ℚ) :
    (∀ n, n ∈ W.nodesInArea x y r ↔ n < W.nNodes ∧ W.sq n x y < r ^ 2) ∧
    (W.nodesInArea x y r).Pairwise (· < ·) := by
  refine ⟨fun n => ?_, (List.pairwise_lt_range).filter _⟩
  unfold nodesInArea
  simp [nodeSqDist_exact hfl, World.fl, hfl]

def farDemo : M World := runCmds demoCfg (fun _ => 0)
  [.node { name := "a", x := 200000, y := 0 }, .node { name := "b", x := 200001, y := 0 }]

/-- C48 is false of the code far from the network: with nodes 200 km away the query gives `None`. -/
theorem C48_nearest_false : ∃ W, Reachable Any W ∧ W.cfg.fl = id ∧ W.nNodes = 2 ∧
    W.nearestNode 0 0 = none := by
  have h : obs farDemo (fun W => decide (W.nNodes = 2 ∧ W.nearestNode 0 0 = none)) = true := by
    decide +kernel
  obtain ⟨W, h1, h2⟩ := obs_ok h
  simp only [decide_eq_true_eq] at h2
  exact ⟨W, runCmds_reachable h1, by rw [runCmds_cfg h1]; rfl, h2⟩

/-- A case in which both queries answer: the nearer of two nodes, and the one node in the area. -/
example : obs farDemo (fun W => decide (W.nearestNode 200002 0 = some 1 ∧
    W.nodesInArea 200002 0 (3/2) = [1] ∧ W.nodesInArea 200002 0 1 = [])) = true := by decide +kernel

/-! ## Demand between sets of nodes -/

theorem mapM_ok {α β : Type} {f : α → M β} : ∀ {xs : List α} {ys : List β}, xs.mapM f = .ok ys →
    List.Forall₂ (fun x y => f x = .ok y) xs ys
  | [], ys, h => by
    simp [pure, Except.pure] at h; subst h; exact .nil
  | x :: xs, ys, h => by
    rw [List.mapM_cons, bind_ok] at h
    obtain ⟨y, hy, h⟩ := h
    rw [bind_ok] at h
    obtain ⟨zs, hz, h⟩ := h
    rw [pure_ok] at h
    subst h
    exact .cons hy (mapM_ok hz)

/-- All functions that generate demand are sequences of `addVehicle` calls (and draws of random
numbers): what holds for all histories of calls holds after them. -/
theorem C51_history {W W' : World} {os ds : List Ref} {o d : Ref}
    {xo yo ro xd yd rd ts te flow volume : ℚ}
    (h : W.addDemand o d ts te flow volume = .ok W' ∨
      W.addDemandPoints xo yo xd yd ts te flow volume = .ok W' ∨
      W.addDemandNodes os ds ts te flow volume = .ok W' ∨
      W.addDemandAreas xo yo ro xd yd rd ts te flow volume = .ok W' ∨
      W.addDemandNodes2 os ds ts te flow volume = .ok W' ∨
      W.addDemandAreas2 xo yo ro xd yd rd ts te flow volume = .ok W') :
    ReflTransGen ApiStep W W' := by
  rcases h with h | h | h | h | h | h
  · exact (addDemand_path h).1
  · unfold addDemandPoints at h
    rw [bind_ok] at h
    obtain ⟨_, -, h⟩ := h
    rw [bind_ok] at h
    obtain ⟨_, -, h⟩ := h
    exact (addDemand_path h).1
  · unfold addDemandNodes at h
    rw [bind_ok] at h
    obtain ⟨_, -, h⟩ := h
    rw [bind_ok] at h
    obtain ⟨_, -, h⟩ := h
    exact (demandEach_path h).1
  · unfold addDemandAreas at h
    rw [bind_ok] at h
    obtain ⟨_, -, h⟩ := h
    rw [bind_ok] at h
    obtain ⟨_, -, h⟩ := h
    exact (demandEach_path h).1
  · unfold addDemandNodes2 at h
    rw [bind_ok] at h
    obtain ⟨_, -, h⟩ := h
    rw [bind_ok] at h
    obtain ⟨_, -, h⟩ := h
    exact (demandSmooth_spec h).2.1
  · unfold addDemandAreas2 at h
    rw [bind_ok] at h
    obtain ⟨_, -, h⟩ := h
    rw [bind_ok] at h
    obtain ⟨_, -, h⟩ := h
    exact (demandSmooth_spec h).2.1

theorem linspace_get {a b : ℚ} {n j : ℕ} {t : ℚ} (h : (linspace id a b n)[j]? = some t) :
    t = a + j * ((b - a) / (n - 1 : ℕ)) := by
  unfold linspace at h
  rw [List.getElem?_map, Option.map_eq_some_iff] at h
  obtain ⟨i, hi, rfl⟩ := h
  obtain ⟨hj, rfl⟩ : j < n ∧ j = i := by
    rw [List.getElem?_eq_some_iff] at hi
    obtain ⟨h1, h2⟩ := hi
    exact ⟨by simpa using h1, by simpa using h2⟩
  split
  · rename_i h0; simp [h0]
  · split
    · rename_i h0 h1
      obtain rfl : n = j + 1 := h1.symm
      have : (j : ℚ) ≠ 0 := by exact_mod_cast h0
      rw [Nat.add_sub_cancel]
      field_simp
      ring
    · simp only [id]; ring

theorem smooth_trips {W W' : World} {os ds : List NodeId} {ts te flow volume v : ℚ}
    (hfl : W.cfg.fl = id)
    (hv : 0 ≤ v) (hvol : volume = v ∨ volume = -1 ∧ 0 ≤ flow ∧ v = flow * (te - ts))
    (h : W.demandSmooth os ds ts te flow volume = .ok W') :
    ∃ trips, Made trips W W' ∧ SmoothTrips W (· ∈ os) (· ∈ ds) ts te v trips := by
  obtain ⟨h0, -, -, trips, hm, hs, hg⟩ := demandSmooth_spec h
  have hf : W.fl = id := by funext q; simp [World.fl, hfl]
  have hsz : W.demandSize ts te flow volume = ⌊v / W.dn⌋ := by
    unfold demandSize
    rw [hf]
    have : (if 0 ≤ flow ∧ volume = -1 then id (flow * id (te - ts)) else volume) = v := by
      rcases hvol with rfl | ⟨h1, h2, h3⟩
      · rw [if_neg]; rintro ⟨-, h2⟩; rw [h2] at hv; norm_num at hv
      · rw [if_pos ⟨h2, h1⟩]; simp [h3]
    rw [this]
    exact pyInt_nonneg (div_nonneg hv (Nat.cast_nonneg _))
  have hl : trips.length = ⌊v / W.dn⌋.toNat := by
    have := congrArg List.length hs
    simpa [linspace_length, hsz] using this
  have hnn : 0 ≤ ⌊v / W.dn⌋ := hsz ▸ h0
  refine ⟨trips, hm, by rw [hl, Int.toNat_of_nonneg hnn], fun j t ht => ?_, hg⟩
  have e : (trips.map (·.step))[j]? = some t.step := by rw [List.getElem?_map, ht]; rfl
  rw [hs, List.getElem?_map, Option.map_eq_some_iff] at e
  obtain ⟨q, hq, e⟩ := e
  rw [hf, hsz, ← hl] at hq
  rw [← e, linspace_get hq, hf]; rfl

/-- C51: `adddemand_nodes2nodes2` with volume `v` (or a flow, then `v` is flow times duration). -/
theorem C51_nodes {W W' : World} {os ds : List Ref} {ts te flow volume v : ℚ} (hfl : W.cfg.fl = id)
    (hv : 0 ≤ v) (hvol : volume = v ∨ volume = -1 ∧ 0 ≤ flow ∧ v = flow * (te - ts))
    (h : W.addDemandNodes2 os ds ts te flow volume = .ok W') :
    ∃ trips, Made trips W W' ∧ SmoothTrips W
      (fun n => (∃ r ∈ os, W.getNode r = .ok n) ∧ W.N.outlinks n ≠ [])
      (fun n => (∃ r ∈ ds, W.getNode r = .ok n) ∧ W.N.inlinks n ≠ []) ts te v trips := by
  unfold addDemandNodes2 at h
  rw [bind_ok] at h
  obtain ⟨os', ho, h⟩ := h
  rw [bind_ok] at h
  obtain ⟨ds', hd, h⟩ := h
  have hsm := smooth_trips hfl hv hvol h
  have mem : ∀ {rs : List Ref} {ns : List NodeId}, rs.mapM W.getNode = .ok ns → ∀ n ∈ ns,
      ∃ r ∈ rs, W.getNode r = .ok n := by
    intro rs ns hr n hn
    have := mapM_ok hr
    clear ho hd h hr
    induction this with
    | nil => cases hn
    | cons h1 _ ih =>
      rcases List.mem_cons.1 hn with rfl | hn
      · exact ⟨_, by simp, h1⟩
      · obtain ⟨r, a, b⟩ := ih hn
        exact ⟨r, by simp [a], b⟩
  obtain ⟨trips, hm, hs⟩ := hsm
  refine ⟨trips, hm, hs.number, hs.steps, fun t ht => ?_⟩
  obtain ⟨h1, h2, h3⟩ := hs.ends t ht
  unfold usableOrigs at h1
  unfold usableDests at h2
  rw [List.mem_filter, decide_eq_true_eq] at h1 h2
  exact ⟨⟨mem ho _ h1.1, h1.2⟩, ⟨mem hd _ h2.1, h2.2⟩, h3⟩

theorem orNearest_spec {W : World} (hfl : W.cfg.fl = id) {p : NodeId → Bool} {ns : List NodeId}
    {x y r : ℚ} (h : W.orNearest ((W.nodesInArea x y r).filter p) x y = .ok ns) :
    ∀ n ∈ ns, AreaNode W (fun n => p n = true) x y r n := by
  intro n hn
  unfold orNearest at h
  split at h
  · rename_i he
    rw [map_ok] at h
    obtain ⟨m, hm, h⟩ := h
    subst h
    obtain rfl : n = m := by simpa using hn
    unfold someNode at hm
    split at hm
    · rename_i k hk
      cases hm
      obtain ⟨h1, h2⟩ := (C48_nearest_partial hfl x y).1 _ hk
      refine ⟨h1, .inr ⟨fun m hm hc => ?_, h2⟩⟩
      have : m ∈ (W.nodesInArea x y r).filter p :=
        List.mem_filter.2 ⟨((C48_area hfl x y r).1 m).2 ⟨hm, hc.2⟩, hc.1⟩
      rw [he] at this; cases this
    · cases hm
  · cases h
    rw [List.mem_filter] at hn
    obtain ⟨h1, h2⟩ := ((C48_area hfl x y r).1 n).1 hn.1
    exact ⟨h1, .inl ⟨hn.2, h2⟩⟩

/-- C51: `adddemand_area2area2`. -/
theorem C51_areas {W W' : World} {xo yo ro xd yd rd ts te flow volume v : ℚ} (hfl : W.cfg.fl = id)
    (hv : 0 ≤ v) (hvol : volume = v ∨ volume = -1 ∧ 0 ≤ flow ∧ v = flow * (te - ts))
    (h : W.addDemandAreas2 xo yo ro xd yd rd ts te flow volume = .ok W') :
    ∃ trips, Made trips W W' ∧ SmoothTrips W
      (AreaNode W (fun n => W.N.outlinks n ≠ []) xo yo ro)
      (AreaNode W (fun n => W.N.inlinks n ≠ []) xd yd rd) ts te v trips := by
  unfold addDemandAreas2 at h
  rw [bind_ok] at h
  obtain ⟨os', ho, h⟩ := h
  rw [bind_ok] at h
  obtain ⟨ds', hd, h⟩ := h
  obtain ⟨trips, hm, hs⟩ := smooth_trips hfl hv hvol h
  refine ⟨trips, hm, hs.number, hs.steps, fun t ht => ?_⟩
  obtain ⟨h1, h2, h3⟩ := hs.ends t ht
  have a := orNearest_spec hfl ho _ h1
  have b := orNearest_spec hfl hd _ h2
  simp only [decide_eq_true_eq] at a b
  exact ⟨a, b, h3⟩

/-! ## The older functions: equal shares for all pairs -/

theorem pairs_trips {ts te flow volume : ℚ} : ∀ {ps : List (NodeId × NodeId)} {W W' : World},
    W.cfg.fl = id → 0 < W.cfg.deltan → 0 < W.cfg.deltat → ts < te → (0 ≤ flow ∨ 0 < volume) →
    (∀ p ∈ ps, p.1 < W.nNodes ∧ p.2 < W.nNodes) →
    demandPairs ts te flow volume ps W = .ok W' →
    ∃ trips, Made trips W W' ∧ PairTrips (pyInt (ts / W.cfg.deltat)) (pyInt (te / W.cfg.deltat))
      ((if 0 < volume then volume / (te - ts) else flow) * W.cfg.deltat / W.cfg.deltan) ps trips
  | [], W, W', _, _, _, _, _, _, h => by
    unfold demandPairs at h; cases h
    exact ⟨[], Made.refl _, [], rfl, by simp, rfl⟩
  | p :: ps, W, W', hfl, hn, hdt, hw, hf, hp, h => by
    unfold demandPairs at h
    rw [bind_ok] at h
    obtain ⟨W1, h1, h⟩ := h
    obtain ⟨-, net⟩ := addDemand_path h1
    obtain ⟨p1, p2⟩ := hp p (by simp)
    have g1 : W.getNode (.obj p.1) = .ok p.1 := by simp [World.getNode, p1]
    have g2 : W.getNode (.obj p.2) = .ok p.2 := by simp [World.getNode, p2]
    have key : ∃ deps, Generated p.1 p.2 deps W W1 ∧
      Spread (pyInt (ts / W.cfg.deltat)) (pyInt (te / W.cfg.deltat))
        ((if 0 < volume then volume / (te - ts) else flow) * W.cfg.deltat / W.cfg.deltan) deps := by
      by_cases hv : 0 < volume
      · rw [if_pos hv]
        exact C24_volume_flow hfl hn hdt hw hv g1 g2 h1
      · rw [if_neg hv]
        exact C24_flow hfl hn hdt (hf.resolve_right hv) (not_lt.1 hv) g1 g2 h1
    obtain ⟨deps, hg, hs⟩ := key
    have ih := pairs_trips (W := W1) (by rw [net.cfg]; exact hfl) (by rw [net.cfg]; exact hn)
      (by rw [net.cfg]; exact hdt) hw hf (fun x hx => by rw [net.nodes]; exact hp x (by simp [hx])) h
    rw [net.cfg] at ih
    obtain ⟨trips, hm, dd, l, sp, rfl⟩ := ih
    refine ⟨_, hg.made.trans hm, deps :: dd, by simp [l], ?_, ?_⟩
    · intro s hs'
      rcases List.mem_cons.1 hs' with rfl | hs'
      · exact hs
      · exact sp s hs'
    · simp

theorem each_trips {W W' : World} {os ds : List NodeId} {ts te flow volume r : ℚ}
    (hfl : W.cfg.fl = id) (hn : 0 < W.cfg.deltan) (hdt : 0 < W.cfg.deltat) (hw : ts < te)
    (hr : 0 ≤ flow ∧ volume = -1 ∧ r = flow ∨ 0 < volume ∧ r = volume / (te - ts))
    (ho : ∀ n ∈ os, n < W.nNodes) (hd : ∀ n ∈ ds, n < W.nNodes)
    (h : W.demandEach os ds ts te flow volume = .ok W') :
    ∃ trips, Made trips W W' ∧ PairTrips (pyInt (ts / W.cfg.deltat)) (pyInt (te / W.cfg.deltat))
      (r / (os.length * ds.length : ℕ) * W.cfg.deltat / W.cfg.deltan) (allPairs os ds) trips := by
  unfold World.demandEach at h
  dsimp only at h
  split at h
  · rw [bind_ok] at h; obtain ⟨_, h1, -⟩ := h; cases h1
  rename_i hk
  have hk' : os.length * ds.length ≠ 0 := by
    intro h0
    refine hk ⟨h0, ?_⟩
    rcases hr with ⟨a, b, c⟩ | ⟨a, b⟩
    · left; intro e; rw [e] at a; norm_num at a
    · right; intro e; rw [e] at a; norm_num at a
  have hkq : (0 : ℚ) < (os.length * ds.length : ℕ) := by exact_mod_cast Nat.pos_of_ne_zero hk'
  have hp : ∀ p ∈ allPairs os ds, p.1 < W.nNodes ∧ p.2 < W.nNodes := by
    intro p hp
    simp only [allPairs, List.mem_flatMap, List.mem_map] at hp
    obtain ⟨a, ha, b, hb, rfl⟩ := hp
    exact ⟨ho a ha, hd b hb⟩
  simp only [World.fl, hfl, id] at h
  rcases hr with ⟨a, b, c⟩ | ⟨a, b⟩
  · have hne : flow ≠ -1 := by intro e; rw [e] at a; norm_num at a
    rw [if_pos hne, if_neg (by simp [b])] at h
    have := pairs_trips hfl hn hdt hw (.inl (div_nonneg a hkq.le)) hp h
    rw [if_neg (by rw [b]; norm_num)] at this
    rw [c]; exact this
  · have hne : volume ≠ -1 := by intro e; rw [e] at a; norm_num at a
    have hpos : 0 < volume / (os.length * ds.length : ℕ) := div_pos a hkq
    rw [if_pos hne] at h
    have := pairs_trips hfl hn hdt hw (.inr hpos) hp h
    rw [if_pos hpos] at this
    rw [b, div_right_comm]; exact this

/-- C52: `adddemand_nodes2nodes` gives every pair of a usable origin and a usable destination the same
share of the demand. `r` is the total flow asked for. -/
theorem C52_nodes {W W' : World} (hR : Reachable Any W) {os ds : List Ref} {ts te flow volume r : ℚ}
    (hfl : W.cfg.fl = id) (hn : 0 < W.cfg.deltan) (hdt : 0 < W.cfg.deltat) (hw : ts < te)
    (hr : 0 ≤ flow ∧ volume = -1 ∧ r = flow ∨ 0 < volume ∧ r = volume / (te - ts))
    (h : W.addDemandNodes os ds ts te flow volume = .ok W') :
    ∃ os' ds' trips, List.Forall₂ (fun r n => W.getNode r = .ok n) os os' ∧
      List.Forall₂ (fun r n => W.getNode r = .ok n) ds ds' ∧ Made trips W W' ∧
      let O := os'.filter (fun n => decide (W.N.outlinks n ≠ []))
      let D := ds'.filter (fun n => decide (W.N.inlinks n ≠ []))
      PairTrips (pyInt (ts / W.cfg.deltat)) (pyInt (te / W.cfg.deltat))
        (r / (O.length * D.length : ℕ) * W.cfg.deltat / W.cfg.deltan) (allPairs O D) trips := by
  unfold addDemandNodes at h
  rw [bind_ok] at h
  obtain ⟨os', ho, h⟩ := h
  rw [bind_ok] at h
  obtain ⟨ds', hd, h⟩ := h
  have lt : ∀ {rs : List Ref} {ns : List NodeId}, List.Forall₂ (fun r n => W.getNode r = .ok n) rs ns →
      ∀ n ∈ ns, n < W.nNodes := by
    intro rs ns hf
    induction hf with
    | nil => simp
    | cons h1 _ ih =>
      intro n hn
      rcases List.mem_cons.1 hn with rfl | hn
      · exact hR.inv.n.getNode_lt h1
      · exact ih n hn
  obtain ⟨trips, hm, ht⟩ := each_trips hfl hn hdt hw hr
    (fun n hn => lt (mapM_ok ho) n (List.mem_of_mem_filter hn))
    (fun n hn => lt (mapM_ok hd) n (List.mem_of_mem_filter hn)) h
  exact ⟨os', ds', trips, mapM_ok ho, mapM_ok hd, hm, ht⟩

/-- C52: `adddemand_area2area` likewise, for the candidates of the two areas. -/
theorem C52_areas {W W' : World} {xo yo ro xd yd rd ts te flow volume r : ℚ}
    (hfl : W.cfg.fl = id) (hn : 0 < W.cfg.deltan) (hdt : 0 < W.cfg.deltat) (hw : ts < te)
    (hr : 0 ≤ flow ∧ volume = -1 ∧ r = flow ∨ 0 < volume ∧ r = volume / (te - ts))
    (h : W.addDemandAreas xo yo ro xd yd rd ts te flow volume = .ok W') :
    ∃ O D trips, (∀ n ∈ O, AreaNode W (fun n => W.N.outlinks n ≠ []) xo yo ro n) ∧
      (∀ n ∈ D, AreaNode W (fun n => W.N.inlinks n ≠ []) xd yd rd n) ∧ Made trips W W' ∧
      PairTrips (pyInt (ts / W.cfg.deltat)) (pyInt (te / W.cfg.deltat))
        (r / (O.length * D.length : ℕ) * W.cfg.deltat / W.cfg.deltan) (allPairs O D) trips := by
  unfold addDemandAreas at h
  rw [bind_ok] at h
  obtain ⟨os', ho, h⟩ := h
  rw [bind_ok] at h
  obtain ⟨ds', hd, h⟩ := h
  have a := orNearest_spec hfl ho
  have b := orNearest_spec hfl hd
  simp only [decide_eq_true_eq] at a b
  obtain ⟨trips, hm, ht⟩ := each_trips hfl hn hdt hw hr (fun n hn => (a n hn).1) (fun n hn => (b n hn).1) h
  exact ⟨os', ds', trips, a, b, hm, ht⟩

/-- C52: the number of platoons is the number of pairs times the rounded-down share of one pair. In
particular never more than asked for. -/
theorem C52_total {a b : ℤ} {q : ℚ} {pairs : List (NodeId × NodeId)} {trips : List Trip} (hab : a ≤ b)
    (h : PairTrips a b q pairs trips) :
    (trips.length : ℤ) = pairs.length * ⌊((b - a : ℤ) : ℚ) * q⌋ ∧
    ((trips.length : ℤ) : ℚ) ≤ pairs.length * (((b - a : ℤ) : ℚ) * q) := by
  obtain ⟨deps, l, hs, rfl⟩ := h
  have key : ∀ (ps : List (NodeId × NodeId)) (ds : List (List ℤ)), ds.length = ps.length →
      (∀ s ∈ ds, Spread a b q s) →
      ((((ps.zip ds).flatMap fun p => p.2.map fun t => (⟨p.1.1, p.1.2, t⟩ : Trip)).length : ℕ) : ℤ) =
        ps.length * ⌊((b - a : ℤ) : ℚ) * q⌋ := by
    intro ps
    induction ps with
    | nil => intro ds _ _; simp
    | cons p ps ih =>
      intro ds hl hsp
      cases ds with
      | nil => simp at hl
      | cons d ds =>
        have := ih ds (by simpa using hl) (fun s hs => hsp s (by simp [hs]))
        have hd := (hsp d (by simp)).total hab
        simp only [List.zip_cons_cons, List.flatMap_cons, List.length_append, List.length_map,
          List.length_cons]
        push_cast at this ⊢
        rw [this, hd]; push_cast; ring
  have e := key pairs deps l hs
  refine ⟨e, ?_⟩
  rw [e]
  push_cast
  exact mul_le_mul_of_nonneg_left (by simpa using Int.floor_le (((b - a : ℤ) : ℚ) * q)) (Nat.cast_nonneg _)

def areaDemo : M World := runCmds demoCfg (fun k => k)
  [.node { name := "a", x := 0, y := 0 }, .node { name := "b", x := 100, y := 0 },
   .node { name := "c", x := 200, y := 0 },
   .link { name := "ab", startN := .name "a", endN := .name "b", length := 100 },
   .link { name := "ba", startN := .name "b", endN := .name "a", length := 100 },
   .link { name := "bc", startN := .name "b", endN := .name "c", length := 100 }]

/-- C52, what the code's own warning says: 15 vehicles asked for, spread over four pairs, give none. -/
theorem C52_exact_false : ∃ W W', Reachable Any W ∧ W.dn = 5 ∧ W.nVeh = 0 ∧
    W.addDemandNodes [.name "a", .name "b"] [.name "b", .name "c"] 0 100 (-1) 15 = .ok W' ∧
    W'.nVeh = 0 := by
  have h : obs areaDemo (fun W => decide (W.dn = 5 ∧ W.nVeh = 0) &&
      obs (W.addDemandNodes [.name "a", .name "b"] [.name "b", .name "c"] 0 100 (-1) 15)
        (fun W' => decide (W'.nVeh = 0))) = true := by decide +kernel
  obtain ⟨W, h1, h2⟩ := obs_ok h
  rw [Bool.and_eq_true] at h2
  obtain ⟨W', h3, h4⟩ := obs_ok h2.2
  have h5 := h2.1
  simp only [decide_eq_true_eq] at h4 h5
  exact ⟨W, W', runCmds_reachable h1, h5.1, h5.2, h3, h4⟩

/-- A case of the newer function: three platoons, evenly spaced, none from b to b. -/
example : obs areaDemo (fun W =>
    obs (W.addDemandNodes2 [.name "a", .name "b"] [.name "b", .name "c"] 0 100 (-1) 15)
      (fun W' => decide (W'.nVeh = 3 ∧ W'.V.depTime 0 = 0 ∧ W'.V.depTime 1 = 10 ∧ W'.V.depTime 2 = 20) &&
        [0, 1, 2].all (fun v => decide (some (W'.V.orig v) ≠ W'.V.dest v)))) = true := by decide +kernel

/-- A case of the older function: 40 vehicles, 10 for each of the four pairs, also from b to b. -/
example : obs areaDemo (fun W =>
    obs (W.addDemandNodes [.name "a", .name "b"] [.name "b", .name "c"] 0 100 (-1) 40)
      (fun W' => decide (W'.nVeh = 8 ∧ W'.V.orig 4 = 1 ∧ W'.V.dest 4 = some 1))) = true := by decide +kernel

/-- Areas: a circle around each of two nodes. -/
example : obs areaDemo (fun W =>
    obs (W.addDemandAreas2 10 0 50 190 0 50 0 100 (-1) 10)
      (fun W' => decide (W'.nVeh = 2) &&
        [0, 1].all (fun v => decide (W'.V.orig v = 0 ∧ W'.V.dest v = some 2)))) = true := by
  decide +kernel

end UX
