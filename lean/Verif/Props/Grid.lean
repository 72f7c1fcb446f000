import Verif.Proofs.Grid
import Verif.Props.Ways

/-! # C74: grid networks -/

namespace UX
open World

/-- The node objects of the grid. -/
def gridId (A : World) (jmax : ℕ) (p : ℕ × ℕ) : NodeId := A.nNodes + p.1 * jmax + p.2

/-- The link objects of the grid. -/
def gridLk (A : World) (imax jmax : ℕ) (p q : ℕ × ℕ) : LinkId := A.nLinks + (pairs imax jmax).idxOf (p, q)

/-- Arguments of the nodes. -/
def gridNodeArgs (fl : ℚ → ℚ) (p : ℕ × ℕ) : NodeArgs :=
  { name := gridNode p.1 p.2, x := p.1, y := p.2, flowCap := some (fl (8 / 5)) }

/-- Arguments of the links. -/
def gridLinkArgs (A : World) (jmax : ℕ) (pq : (ℕ × ℕ) × (ℕ × ℕ)) : String × NodeId × NodeId :=
  (gridLink pq.1.1 pq.1.2 pq.2.1 pq.2.2, gridId A jmax pq.1, gridId A jmax pq.2)

theorem gridNodes_flat (A : World) (fuel imax jmax : ℕ) :
    A.gridNodes fuel imax jmax =
      ((points imax jmax).map (gridNodeArgs A.cfg.fl)).foldlM (fun W a => W.addNode fuel a) A := by
  rw [List.foldlM_map]
  unfold gridNodes points
  rw [← foldlM_flat]
  simp only [List.foldlM_map]
  rfl

theorem gridLinks_flat (A A1 : World) (kw : LinkArgs) (imax jmax : ℕ) :
    A1.gridLinks (fun i j => A.nNodes + i * jmax + j) kw imax jmax =
      ((pairs imax jmax).map (gridLinkArgs A jmax)).foldlM (fun W a =>
        W.addLink { kw with name := some a.1, startN := .obj a.2.1, endN := .obj a.2.2 }) A1 := by
  rw [List.foldlM_map]
  unfold gridLinks pairs points
  rw [← foldlM_flat, ← foldlM_flat]
  simp only [List.foldlM_map]
  rfl

theorem gridId_inj {A : World} {imax jmax : ℕ} {p q : ℕ × ℕ} (hp : Inside imax jmax p) (hq : Inside imax jmax q)
    (h : gridId A jmax p = gridId A jmax q) : p = q := by
  have h1 := points_get hp.1 hp.2
  have h2 := points_get hq.1 hq.2
  have e : p.1 * jmax + p.2 = q.1 * jmax + q.2 := by
    have h3 : A.nNodes + p.1 * jmax + p.2 = A.nNodes + q.1 * jmax + q.2 := h
    omega
  rw [e, h2] at h1
  exact (Option.some.inj h1).symm

theorem gridId_range {imax jmax : ℕ} {p : ℕ × ℕ} (hp : Inside imax jmax p) : p.1 * jmax + p.2 < imax * jmax := by
  have := List.getElem?_eq_some_iff.1 (points_get hp.1 hp.2)
  obtain ⟨h, -⟩ := this
  rwa [length_points] at h

/-- C74: whatever the network before and the keyword arguments, if the call returns, the network is the one before plus
the grid: nodes named after their position, with capacity 1.6 and no signal, and exactly one link from each node to each of
its neighbours. -/
theorem C74_grid {A B : World} {fuel imax jmax : ℕ} {kw : LinkArgs} (h : A.gridNetwork fuel imax jmax kw = .ok B) :
    GridAdded A B imax jmax kw.length (gridId A jmax) (gridLk A imax jmax) := by
  unfold gridNetwork at h
  rw [bind_ok] at h
  obtain ⟨A1, h1, h2⟩ := h
  rw [gridNodes_flat] at h1
  rw [gridLinks_flat] at h2
  have hN := nodesAdded h1
  have hL := linksAdded h2
  obtain ⟨n1, n2, n3, n4, n5, n6, n7, -⟩ := hL.nodes
  obtain ⟨l1, l2, l3, -, -⟩ := hN.links
  have hsz : B.nNodes = A.nNodes + imax * jmax := by
    rw [n1, hN.size, List.length_map, length_points]
  have hlsz : B.nLinks = A.nLinks + (pairs imax jmax).length := by
    rw [hL.size, List.length_map, l1]
  have hid : ∀ p : ℕ × ℕ, gridId A jmax p = A.nNodes + (p.1 * jmax + p.2) := fun p => Nat.add_assoc _ _ _
  have hnew : ∀ p, Inside imax jmax p → _ := fun p hp => hN.new (p.1 * jmax + p.2) (gridNodeArgs A.cfg.fl p) (by
    rw [List.getElem?_map, points_get hp.1 hp.2]; rfl)
  have hlnew : ∀ p q, Inside imax jmax p → Inside imax jmax q → Beside p q →
      (pairs imax jmax).idxOf (p, q) < (pairs imax jmax).length ∧ _ := fun p q hp hq hpq => by
    have hm : (p, q) ∈ pairs imax jmax := mem_pairs.2 ⟨hp, hq, hpq⟩
    have hi := List.idxOf_lt_length_of_mem hm
    refine ⟨hi, hL.new ((pairs imax jmax).idxOf (p, q)) (gridLinkArgs A jmax (p, q)) ?_⟩
    rw [List.getElem?_map, List.getElem?_eq_getElem hi, List.getElem_idxOf]
    rfl
  constructor
  · exact hsz
  · rw [hlsz, length_pairs]
  · intro n hn1 hn2
    have hk : n - A.nNodes < (points imax jmax).length := by
      have a1 : A.nNodes ≤ (n : ℕ) := hn1
      have a2 : (n : ℕ) < B.nNodes := hn2
      rw [length_points]; omega
    have hp : (points imax jmax)[n - A.nNodes]? = some (points imax jmax)[n - A.nNodes] := List.getElem?_eq_getElem hk
    have hin := mem_points.1 (List.getElem_mem hk)
    refine ⟨_, hin, ?_⟩
    have h3 := points_get hin.1 hin.2
    rw [← hp] at h3
    have h4 := (List.getElem?_inj (by rw [length_points]; exact gridId_range hin) (nodup_points _ _)).1 h3
    have a1 : A.nNodes ≤ (n : ℕ) := hn1
    rw [hid, h4]
    exact Nat.add_sub_cancel' a1
  · intro p hp
    have := gridId_range hp
    rw [hid, hsz]
    exact ⟨Nat.le_add_right _ _, Nat.add_lt_add_left this _⟩
  · exact fun p q => gridId_inj
  · intro p hp
    have := hnew p hp
    rw [hid, n2, n7]
    exact ⟨this.1, this.2.2.2.2.2⟩
  · intro p hp
    have := hnew p hp
    rw [hid, n3, n4]
    exact ⟨this.2.1, this.2.2.1⟩
  · intro p hp
    have := hnew p hp
    rw [hid, n5, n6]
    refine ⟨?_, this.2.2.2.2.1⟩
    rw [this.2.2.2.1]
    simp only [gridNodeArgs]
    norm_num
  · intro l hl1 hl2
    have a1 : A.nLinks ≤ (l : ℕ) := hl1
    have a2 : (l : ℕ) < B.nLinks := hl2
    have hk : l - A.nLinks < (pairs imax jmax).length := by omega
    have hm := mem_pairs.1 (List.getElem_mem hk)
    refine ⟨_, _, hm.1, hm.2.1, hm.2.2, ?_⟩
    unfold gridLk
    have h3 : (pairs imax jmax).idxOf (pairs imax jmax)[l - A.nLinks] = l - A.nLinks :=
      List.Nodup.idxOf_getElem (nodup_pairs _ _) _ hk
    calc A.nLinks + (pairs imax jmax).idxOf (pairs imax jmax)[l - A.nLinks] = A.nLinks + (l - A.nLinks) := by rw [h3]
      _ = l := Nat.add_sub_cancel' a1
  · intro p q hp hq hpq
    have := (hlnew p q hp hq hpq).1
    unfold gridLk
    rw [hlsz]
    exact ⟨Nat.le_add_right _ _, Nat.add_lt_add_left this _⟩
  · intro p q hp hq hpq
    have := (hlnew p q hp hq hpq).2
    rw [l1] at this
    exact ⟨this.2.1, this.2.2.1, this.2.2.2.1⟩
  · intro p q hp hq hpq
    have := (hlnew p q hp hq hpq).2
    rw [l1] at this
    exact ⟨this.1, this.2.2.2.2⟩
  · intro n hn
    rw [n2, n3, n4, n5, n6]
    exact hN.old n hn
  · intro l hl
    have := hL.old l (by rw [l1]; exact hl)
    rw [l2] at this
    exact this

/-- C74: the call does not raise if the names are free and the keyword arguments make a link. -/
theorem C74_total {A : World} {fuel imax jmax : ℕ} {kw : LinkArgs} {k : ℕ} (hk : kw.lanes = k) {r}
    (hp : linkParams A.cfg.fl A.cfg.reactionTime k kw.u
      (match kw.jamPerLane with | some j => A.fl (j * kw.lanes) | none => kw.jamDensity) = .ok r)
    (hn : ∀ p, Inside imax jmax p → A.nodeDict s!"n({p.1}, {p.2})" = none)
    (hl : ∀ p q, Inside imax jmax p → Inside imax jmax q → Beside p q →
      A.linkDict s!"l({p.1}, {p.2}, {q.1}, {q.2})" = none) :
    ∃ B, A.gridNetwork fuel imax jmax kw = .ok B := by
  have h1 : ∃ A1, A.gridNodes fuel imax jmax = .ok A1 := by
    rw [gridNodes_flat]
    refine nodes_ok ?_ ?_ ?_
    · intro a ha
      obtain ⟨p, -, rfl⟩ := List.mem_map.1 ha
      rfl
    · rw [List.map_map]
      refine (nodup_points imax jmax).map fun p q h => ?_
      obtain ⟨e1, e2⟩ := gridNode_inj h
      exact Prod.ext e1 e2
    · intro a ha
      obtain ⟨p, hp, rfl⟩ := List.mem_map.1 ha
      exact hn p (mem_points.1 hp)
  obtain ⟨A1, h1⟩ := h1
  have hN := h1
  rw [gridNodes_flat] at hN
  have hN := nodesAdded hN
  obtain ⟨-, -, l3, l4, -⟩ := hN.links
  unfold gridNetwork
  rw [h1, ok_bind, gridLinks_flat]
  refine links_ok hk (r := r) ?_ ?_ ?_ ?_
  · have e : A1.fl = A.fl := by unfold World.fl; rw [l4]
    rw [l4, e]
    exact hp
  · intro a ha
    obtain ⟨⟨p, q⟩, hpq, rfl⟩ := List.mem_map.1 ha
    obtain ⟨hp, hq, -⟩ := mem_pairs.1 hpq
    have e : A1.nNodes = A.nNodes + imax * jmax := by rw [hN.size, List.length_map, length_points]
    have a1 := gridId_range hp
    have a2 := gridId_range hq
    rw [e]
    constructor
    · calc A.nNodes + p.1 * jmax + p.2 = A.nNodes + (p.1 * jmax + p.2) := Nat.add_assoc _ _ _
        _ < _ := Nat.add_lt_add_left a1 _
    · calc A.nNodes + q.1 * jmax + q.2 = A.nNodes + (q.1 * jmax + q.2) := Nat.add_assoc _ _ _
        _ < _ := Nat.add_lt_add_left a2 _
  · rw [List.map_map]
    refine (nodup_pairs imax jmax).map fun p q h => ?_
    obtain ⟨e1, e2, e3, e4⟩ := gridLink_inj h
    exact Prod.ext (Prod.ext e1 e2) (Prod.ext e3 e4)
  · intro a ha
    obtain ⟨⟨p, q⟩, hpq, rfl⟩ := List.mem_map.1 ha
    obtain ⟨hp, hq, hb⟩ := mem_pairs.1 hpq
    rw [l3]
    exact hl p q hp hq hb

theorem foldlM_reach {α : Type} {f : World → α → M World} (hf : ∀ W a W', W.finalized = false → f W a = .ok W' →
    ApiStep W W' ∧ W'.finalized = false) : ∀ {xs : List α} {A B : World}, Reachable Any A → A.finalized = false →
    xs.foldlM f A = .ok B → Reachable Any B ∧ B.finalized = false
  | [], A, B, hr, hA, h => by
    rw [List.foldlM_nil, pure_ok] at h
    subst h
    exact ⟨hr, hA⟩
  | a :: xs, A, B, hr, hA, h => by
    rw [List.foldlM_cons, bind_ok] at h
    obtain ⟨A1, h1, h2⟩ := h
    obtain ⟨h3, h4⟩ := hf A a A1 hA h1
    exact foldlM_reach hf (.next hr h3 trivial) h4 h2

/-- The grid can be the start of any history. -/
theorem grid_reachable {A B : World} {fuel imax jmax : ℕ} {kw : LinkArgs} (hr : Reachable Any A) (hA : A.finalized = false)
    (h : A.gridNetwork fuel imax jmax kw = .ok B) : Reachable Any B ∧ B.finalized = false := by
  unfold gridNetwork at h
  rw [bind_ok] at h
  obtain ⟨A1, h1, h2⟩ := h
  rw [gridNodes_flat] at h1
  rw [gridLinks_flat] at h2
  obtain ⟨hr1, hA1⟩ := foldlM_reach (fun W a W' hW h => ⟨.addNode hW h, by
    obtain ⟨_, _, _, -, -, rfl⟩ := addNode_ok h; exact hW⟩) hr hA h1
  exact foldlM_reach (fun W a W' hW h => ⟨.addLink hW h, by
    obtain ⟨_, _, _, _, _, -, -, -, -, -, -, rfl⟩ := addLink_ok h; exact hW⟩) hr1 hA1 h2

/-- The next point on a way to `q`. -/
theorem toward {imax jmax : ℕ} {p q : ℕ × ℕ} (hp : Inside imax jmax p) (hq : Inside imax jmax q) (h : p ≠ q) :
    ∃ r, Inside imax jmax r ∧ Beside p r ∧ gridDist p q = gridDist r q + 1 := by
  obtain ⟨i, j⟩ := p
  obtain ⟨k, m⟩ := q
  unfold Inside Beside gridDist at *
  simp only [ne_eq, Prod.mk.injEq, not_and] at h
  rcases Nat.lt_trichotomy i k with h1 | h1 | h1
  · exact ⟨(i + 1, j), by dsimp only at *; omega⟩
  · rcases Nat.lt_trichotomy j m with h2 | h2 | h2
    · exact ⟨(i, j + 1), by dsimp only at *; omega⟩
    · exact absurd h2 (h h1)
    · exact ⟨(i, j - 1), by dsimp only at *; omega⟩
  · exact ⟨(i - 1, j), by dsimp only at *; omega⟩

theorem beside_dist {p q r : ℕ × ℕ} (h : Beside p r) : gridDist p q ≤ gridDist r q + 1 := by
  unfold Beside gridDist at *
  omega

/-- C74: from every node of the grid there is a way to every other one along as many links as they are apart in the two
directions together. -/
theorem C74_ways {A B : World} {imax jmax : ℕ} {len : ℚ} {id lk} (h : GridAdded A B imax jmax len id lk)
    {p q : ℕ × ℕ} (hp : Inside imax jmax p) (hq : Inside imax jmax q) :
    ∃ w, Way B (id p) (id q) w ∧ w.length = gridDist p q ∧ ∀ l ∈ w, B.L.length l = len := by
  generalize hd : gridDist p q = d
  induction d generalizing p with
  | zero =>
    have : p = q := by
      unfold gridDist at hd
      exact Prod.ext (by omega) (by omega)
    subst this
    exact ⟨[], way_nil.2 rfl, rfl, by simp⟩
  | succ d ih =>
    have hne : p ≠ q := by rintro rfl; unfold gridDist at hd; omega
    obtain ⟨r, hr, hb, e⟩ := toward hp hq hne
    obtain ⟨w, h1, h2, h3⟩ := ih hr (by omega)
    have he := h.ends p r hp hr hb
    refine ⟨lk p r :: w, way_cons.2 ⟨(h.lrange p r hp hr hb).2, he.1, by rw [he.2.1]; exact h1⟩, by simp [h2], ?_⟩
    intro l hl
    rcases List.mem_cons.1 hl with rfl | hl
    · exact he.2.2
    · exact h3 l hl

/-- C74: in a world that had no links before, no way is shorter. -/
theorem C74_ways_min {A B : World} {imax jmax : ℕ} {len : ℚ} {id lk} (h : GridAdded A B imax jmax len id lk)
    (hA : A.nLinks = 0) {p q : ℕ × ℕ} (hp : Inside imax jmax p) (hq : Inside imax jmax q) {w : List LinkId}
    (hw : Way B (id p) (id q) w) : gridDist p q ≤ w.length ∧ ∀ l ∈ w, B.L.length l = len := by
  induction w generalizing p with
  | nil =>
    have := h.inj p q hp hq (way_nil.1 hw)
    subst this
    exact ⟨by unfold gridDist; simp, by simp⟩
  | cons l w ih =>
    obtain ⟨h1, h2, h3⟩ := way_cons.1 hw
    obtain ⟨p', r, hp', hr, hb, rfl⟩ := h.link l (by rw [hA]; exact Nat.zero_le _) h1
    have he := h.ends p' r hp' hr hb
    have : p' = p := h.inj p' p hp' hp (by rw [← he.1]; exact h2)
    subst this
    rw [he.2.1] at h3
    obtain ⟨i1, i2⟩ := ih hr h3
    refine ⟨?_, ?_⟩
    · have := beside_dist (q := q) hb
      rw [List.length_cons]
      omega
    · intro l hl
      rcases List.mem_cons.1 hl with rfl | hl
      · exact he.2.2
      · exact i2 l hl

theorem costSum_const {f : LinkId → ℚ} {c : ℚ} : ∀ {w : List LinkId}, (∀ l ∈ w, f l = c) → costSum f w = w.length * c
  | [], _ => by simp [costSum]
  | l :: w, h => by
    have := costSum_const (w := w) (fun k hk => h k (by simp [hk]))
    have hl := h l (by simp)
    simp only [costSum, List.map_cons, List.sum_cons, List.length_cons] at this ⊢
    rw [this, hl]
    push_cast
    ring

/-- C74: the shortest distances reported for a grid (`get_shortest_path_distance_between_all_nodes`) are the numbers of steps
times the link length. -/
theorem C74_distances {A B : World} {fuel imax jmax : ℕ} {kw : LinkArgs} (hr : Reachable Any A) (hA : A.finalized = false)
    (hA0 : A.nLinks = 0) (h : A.gridNetwork fuel imax jmax kw = .ok B) (hlen : 0 < kw.length)
    {sp} (hsp : GoodSearch sp) {p q : ℕ × ℕ} (hp : Inside imax jmax p) (hq : Inside imax jmax q) :
    B.distancesAll sp (gridId A jmax p) (gridId A jmax q) = some (gridDist p q * kw.length) := by
  have hG := C74_grid h
  have hB := (grid_reachable hr hA h).1
  have hl : ∀ l < B.nLinks, 0 < B.L.length l := by
    intro l hl
    obtain ⟨p', r, hp', hr, hb, rfl⟩ := hG.link l (by rw [hA0]; exact Nat.zero_le _) hl
    rw [(hG.ends p' r hp' hr hb).2.2]
    exact hlen
  obtain ⟨d1, d2⟩ := C69_distances hB hl hsp (hG.range p hp).2 (hG.range q hq).2
  obtain ⟨w, w1, w2, w3⟩ := C74_ways hG hp hq
  cases hd : B.distancesAll sp (gridId A jmax p) (gridId A jmax q) with
  | none => exact absurd w1 (d2.1 hd w)
  | some d =>
    obtain ⟨⟨v, v1, v2⟩, v3⟩ := d1 d hd
    have e1 := v3 w w1
    rw [costSum_const w3, w2] at e1
    obtain ⟨m1, m2⟩ := C74_ways_min hG hA0 hp hq v1
    rw [costSum_const m2] at v2
    have e2 : ((gridDist p q : ℕ) : ℚ) * kw.length ≤ v.length * kw.length :=
      mul_le_mul_of_nonneg_right (by exact_mod_cast m1) hlen.le
    rw [le_antisymm e1 (by rw [← v2]; exact e2)]

/-- The hypotheses of `C74_total` are met in an empty world by default parameters, so those of `C74_grid` and
`C74_distances` are, too. -/
example : ∃ B, (World.new demoCfg none fun _ => 0).gridNetwork 0 3 4 { startN := .obj 0, endN := .obj 0, length := 500 } = .ok B := by
  have hp : obs (linkParams demoCfg.fl demoCfg.reactionTime 1 20 (1 / 5)) (fun _ => true) = true := by decide +kernel
  obtain ⟨r, hr, -⟩ := obs_ok hp
  exact C74_total (k := 1) (by norm_num) hr (fun _ _ => rfl) (fun _ _ _ _ _ => rfl)

set_option maxRecDepth 100000 in
/-- Node 5 of a 2 by 3 grid is at (1, 2); there are 14 links. -/
example : obs ((World.new demoCfg none fun _ => 0).gridNetwork 0 2 3 { startN := .obj 0, endN := .obj 0, length := 500 })
    (fun B => decide (B.nNodes = 6 ∧ B.nLinks = 14 ∧ B.N.name 5 = "n(1, 2)" ∧ B.N.x 5 = 1 ∧ B.N.y 5 = 2 ∧
      B.nodeDict "n(1, 2)" = some 5 ∧ B.L.name 0 = "l(0, 0, 1, 0)" ∧ B.L.startN 0 = 0 ∧ B.L.endN 0 = 3)) = true := by
  decide +kernel

set_option maxRecDepth 100000 in
/-- C74: "a second grid can be added" is false: the names are taken. -/
theorem C74_twice_false : ∃ A B : World, Reachable Any B ∧ ∃ kw : LinkArgs, A.gridNetwork 0 2 2 kw = .ok B ∧
    B.gridNetwork 0 1 1 kw = .error .valueError := by
  have h : obs ((World.new demoCfg none fun _ => 0).gridNetwork 0 2 2 { startN := .obj 0, endN := .obj 0, length := 500 })
    (fun B => match B.gridNetwork 0 1 1 { startN := .obj 0, endN := .obj 0, length := 500 } with
      | .error e => decide (e = .valueError) | .ok _ => false) = true := by decide +kernel
  obtain ⟨B, h1, h2⟩ := obs_ok h
  refine ⟨_, B, (grid_reachable (.new trivial) rfl h1).1, _, h1, ?_⟩
  cases h3 : B.gridNetwork 0 1 1 { startN := .obj 0, endN := .obj 0, length := 500 } with
  | ok _ => rw [h3] at h2; cases h2
  | error e =>
    rw [h3] at h2
    rw [of_decide_eq_true h2]

end UX
