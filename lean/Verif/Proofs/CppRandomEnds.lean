import Verif.Proofs.CppRandom
import Verif.Proofs.CppInv
import Mathlib.Algebra.BigOperators.Group.List.Basic
import Mathlib.Algebra.Order.BigOperators.Group.List
import Mathlib.Tactic.Positivity

/-! # The search for random routes ends (exact arithmetic) -/

namespace UX.Cpp
open Spec CWorld

/-- What is assumed about the network: exact arithmetic, links between nodes, positive weights. -/
structure RandNet (W : CWorld) (rnd : ℕ → ℕ → ℚ) : Prop where
  exact : W.g.fl = id
  ends : ∀ l, l < W.g.nLinks → (W.link l).src < W.g.nNodes ∧ (W.link l).dst < W.g.nNodes
  pass : Passable W
  draws : ∀ it l, 0 < rnd it l

variable {W : CWorld} {rnd : ℕ → ℕ → ℚ} {k : ℤ}

theorem RandNet.weight (h : RandNet W rnd) (it : ℕ) {l : ℕ} (hl : l < W.g.nLinks) :
    0 < W.randWeight rnd it l := by
  obtain ⟨h1, h2⟩ := h.pass l hl
  have h3 := h.draws it l
  unfold randWeight
  rw [h.exact]
  simp only [id]
  split <;> positivity

theorem RandNet.edge (h : RandNet W rnd) (it : ℕ) {l : ℕ} (hl : l < W.g.nLinks) :
    ∃ l', W.pairLink (W.link l).src (W.link l).dst = some l' ∧
      Edge W.g.nNodes (W.randAdj rnd it) (W.link l).src (W.link l).dst (W.randWeight rnd it l') := by
  obtain ⟨l', hl'⟩ := pairLink_link hl
  refine ⟨l', hl', (h.ends l hl).2, ?_, h.weight it (pairLink_some hl').1⟩
  rcases randAdj_cases W rnd it (W.link l).src (W.link l).dst with ⟨e, -⟩ | ⟨l2, e, e2⟩
  · rw [hl'] at e; cases e
  · rw [hl'] at e; cases e; exact e2

theorem edge_link {it a b : ℕ} {w : ℚ} (he : Edge W.g.nNodes (W.randAdj rnd it) a b w) :
    ∃ l, W.pairLink a b = some l ∧ w = W.randWeight rnd it l := by
  rcases randAdj_cases W rnd it a b with ⟨-, e⟩ | ⟨l, e, e2⟩
  · have := he.2.1
    rw [e] at this
    have h0 := he.2.2
    rw [← Option.some.inj this] at h0
    exact absurd h0 (lt_irrefl _)
  · exact ⟨l, e, Option.some.inj (he.2.1.symm.trans e2)⟩

theorem leads_append {s u t : ℕ} {p q : List ℕ} (h1 : Leads W s u p) (h2 : Leads W u t q) :
    Leads W s t (p ++ q) := by
  induction p generalizing s with
  | nil => cases h1; exact h2
  | cons l p ih => exact ⟨h1.1, h1.2.1, ih h1.2.2⟩

theorem RandNet.leads_walk (h : RandNet W rnd) (it : ℕ) {t : ℕ} : ∀ (r : List ℕ) (s : ℕ), Leads W s t r →
    ∃ c, Walk id W.g.nNodes (W.randAdj rnd it) s t c := by
  intro r
  induction r with
  | nil => intro s hr; cases hr; exact ⟨0, Walk.nil⟩
  | cons l r ih =>
    intro s hr
    obtain ⟨hl, hs, hr⟩ := hr
    obtain ⟨c, hc⟩ := ih _ hr
    obtain ⟨l', -, he⟩ := h.edge it hl
    rw [hs] at he
    exact ⟨_, walk_trans he hc⟩

theorem walk_leads {it s t : ℕ} {c : ℚ} (hw : Walk id W.g.nNodes (W.randAdj rnd it) s t c) :
    ∃ r, Leads W s t r := by
  induction hw with
  | nil => exact ⟨[], rfl⟩
  | snoc _ he ih =>
    obtain ⟨r, hr⟩ := ih
    obtain ⟨l, hl, -⟩ := edge_link he
    obtain ⟨a1, a2, a3⟩ := pairLink_some hl
    exact ⟨r ++ [l], leads_append hr ⟨a1, a2, a3⟩⟩

theorem RandNet.dist (h : RandNet W rnd) (it : ℕ) {s t : ℕ} (hs : s < W.g.nNodes)
    (hr : ∃ r, Leads W s t r) : ∃ d, (dijkstra id W.g.nNodes (W.randAdj rnd it) s).dist t = some d := by
  obtain ⟨r, hr⟩ := hr
  obtain ⟨c, hc⟩ := h.leads_walk it r s hr
  cases hd : (dijkstra id W.g.nNodes (W.randAdj rnd it) s).dist t with
  | some d => exact ⟨d, rfl⟩
  | none => exact absurd hc (((C77_distance flOK_id _ hs t).2.1 hd) c)

/-- A pair has a next hop iff links lead from one node to the other. -/
theorem RandNet.next (h : RandNet W rnd) (it : ℕ) {s t : ℕ} (hs : s < W.g.nNodes) (hst : s ≠ t) :
    W.randNext rnd it s t ≠ none ↔ ∃ r, Leads W s t r := by
  unfold randNext
  rw [h.exact]
  constructor
  · intro hn
    by_contra hno
    refine hn ((C77_next flOK_id _ hs t).2.1 fun c hc => hno (walk_leads hc))
  · intro hr
    obtain ⟨d, hd⟩ := h.dist it hs hr
    obtain ⟨n, -, -, hn, -⟩ := C77_step _ hs (fun e => hst e.symm) hd
    rw [hn]; simp

theorem walk_nonneg {n : ℕ} {adj : ℕ → ℕ → Option ℚ} {s v : ℕ} {c : ℚ} (hw : Walk id n adj s v c) :
    0 ≤ c := by
  induction hw with
  | nil => exact le_refl _
  | snoc _ he ih => exact add_nonneg ih he.2.2.le

def weightSum (W : CWorld) (rnd : ℕ → ℕ → ℚ) (it : ℕ) (p : List ℕ) : ℚ := (p.map (W.randWeight rnd it)).sum

/-- Following the next hops ends at the destination, and gives a way of least weight. -/
theorem RandNet.hops (h : RandNet W rnd) (it : ℕ) {t : ℕ} {s : ℕ} (hs : s < W.g.nNodes) {d : ℚ}
    (hd : (dijkstra id W.g.nNodes (W.randAdj rnd it) s).dist t = some d) :
    ∃ p, W.hopPath (fun a => W.randNext rnd it a t) t (W.g.nNodes + 1) s [] = .path p ∧
      weightSum W rnd it p = d := by
  classical
  let near : ℚ → ℕ := fun d => ((Finset.range W.g.nNodes).filter (fun x =>
    ∃ d', (dijkstra id W.g.nNodes (W.randAdj rnd it) x).dist t = some d' ∧ d' < d)).card
  suffices H : ∀ m s d fuel acc, s < W.g.nNodes →
      (dijkstra id W.g.nNodes (W.randAdj rnd it) s).dist t = some d → near d ≤ m → m < fuel →
      ∃ p, W.hopPath (fun a => W.randNext rnd it a t) t fuel s acc = .path (acc ++ p) ∧
        weightSum W rnd it p = d by
    have hn : near d ≤ W.g.nNodes := by
      have := Finset.card_filter_le (Finset.range W.g.nNodes) (fun x =>
        ∃ d', (dijkstra id W.g.nNodes (W.randAdj rnd it) x).dist t = some d' ∧ d' < d)
      rwa [Finset.card_range] at this
    exact H W.g.nNodes s d _ [] hs hd hn (by omega)
  intro m
  induction m with
  | zero =>
    intro s d fuel acc hs hd hm hf
    obtain ⟨fuel, rfl⟩ : ∃ f, fuel = f + 1 := ⟨fuel - 1, by omega⟩
    by_cases hv : t = s
    · subst hv
      refine ⟨[], ?_, ?_⟩
      · rw [hopPath, if_pos rfl, List.append_nil]
      · have := ((C77_distance flOK_id _ hs t).1 d).1 hd
        have h0 := this.2 0 Walk.nil
        have h1 : 0 ≤ d := walk_nonneg this.1
        simp only [weightSum, List.map_nil, List.sum_nil]
        exact le_antisymm h1 h0
    · obtain ⟨n, w, d', hn, hh, hw, hpos, hd', hsum⟩ := C77_step _ hs hv hd
      have : 0 < near d := Finset.card_pos.2 ⟨n, Finset.mem_filter.2 ⟨Finset.mem_range.2 hh, d', hd', by linarith⟩⟩
      omega
  | succ m ih =>
    intro s d fuel acc hs hd hm hf
    obtain ⟨fuel, rfl⟩ : ∃ f, fuel = f + 1 := ⟨fuel - 1, by omega⟩
    by_cases hv : t = s
    · subst hv
      refine ⟨[], ?_, ?_⟩
      · rw [hopPath, if_pos rfl, List.append_nil]
      · have := ((C77_distance flOK_id _ hs t).1 d).1 hd
        have h0 := this.2 0 Walk.nil
        have h1 : 0 ≤ d := walk_nonneg this.1
        simp only [weightSum, List.map_nil, List.sum_nil]
        exact le_antisymm h1 h0
    · obtain ⟨n, w, d', hn, hh, hw, hpos, hd', hsum⟩ := C77_step _ hs hv hd
      have hlt : near d' < near d := by
        apply Finset.card_lt_card
        refine ⟨?_, ?_⟩
        · intro x hx
          simp only [Finset.mem_filter] at hx ⊢
          obtain ⟨hx1, e, he, hlt⟩ := hx
          exact ⟨hx1, e, he, by linarith⟩
        · intro hsub
          have := hsub (Finset.mem_filter.2 ⟨Finset.mem_range.2 hh, d', hd', by linarith⟩)
          simp only [Finset.mem_filter] at this
          obtain ⟨_, e, he, hlt⟩ := this
          rw [hd'] at he
          rw [← Option.some.inj he] at hlt
          exact lt_irrefl _ hlt
      obtain ⟨l, hl, hwl⟩ := edge_link (it := it) (rnd := rnd) ⟨hh, hw, hpos⟩
      obtain ⟨p, hp, hc⟩ := ih n d' fuel (acc ++ [l]) hh hd' (by omega) (by omega)
      refine ⟨l :: p, ?_, ?_⟩
      · have hne : n ≠ s := by
          rintro rfl
          rw [hd'] at hd
          have := Option.some.inj hd
          linarith
        have hnx : W.randNext rnd it s t = some n := by
          unfold randNext; rw [h.exact]; exact hn
        rw [hopPath, if_neg (fun e => hv e.symm)]
        simp only [hnx, if_neg hne, hl]
        rw [hp]
        simp
      · rw [hsum, hwl, ← hc]
        simp [weightSum]

/-! ## Counting -/

open Classical in
/-- The connected pairs of different nodes. -/
noncomputable def connPairs (W : CWorld) : List (ℕ × ℕ) :=
  W.nodePairs.filter (fun p => decide (p.1 ≠ p.2 ∧ ∃ r, Leads W p.1 p.2 r))

theorem mem_connPairs {p : ℕ × ℕ} : p ∈ connPairs W ↔
    (p.1 < W.g.nNodes ∧ p.2 < W.g.nNodes) ∧ p.1 ≠ p.2 ∧ ∃ r, Leads W p.1 p.2 r := by
  rw [connPairs, List.mem_filter, mem_nodePairs]
  simp

theorem RandNet.counted (h : RandNet W rnd) (it : ℕ) {p : ℕ × ℕ} (hp : p ∈ W.nodePairs) :
    counted (W.randNext rnd it) p = true ↔ p.1 ≠ p.2 ∧ ∃ r, Leads W p.1 p.2 r := by
  unfold Cpp.counted
  rw [decide_eq_true_iff]
  refine and_congr_right fun hne => h.next it (mem_nodePairs.1 hp).1 hne

theorem RandNet.filter (h : RandNet W rnd) (it : ℕ) :
    W.nodePairs.filter (Cpp.counted (W.randNext rnd it)) = connPairs W := by
  classical
  unfold connPairs
  refine List.filter_congr fun p hp => ?_
  rw [Bool.eq_iff_iff, h.counted it hp]
  simp

/-- The number of routes of the connected pairs. -/
noncomputable def total (W : CWorld) (D : RDict) : ℕ := ((connPairs W).map (fun p => nRoutes (D p))).sum

theorem gain_size (k : ℤ) (next : ℕ → ℕ → Option ℕ) (p : ℕ × ℕ) (o : Option (List (List ℕ))) :
    nRoutes o ≤ nRoutes (gain W k next p o) := by
  unfold gain nRoutes
  split
  · exact le_refl _
  · split
    · simp
    · split
      · split
        · simp
        · simp
      · simp

/-- One iteration: it ends, counts the connected pairs and the routes they had, and adds routes. -/
theorem RandNet.iter (h : RandNet W rnd) (k : ℤ) (it : ℕ) (D : RDict) :
    ∃ S, W.randIter k rnd it D = some S ∧ S.pairs = (connPairs W).length ∧ S.routes = total W D ∧
      total W D ≤ total W S.dict ∧
      ∀ p, S.dict p = if p ∈ W.nodePairs then gain W k (W.randNext rnd it) p (D p) else D p := by
  obtain ⟨S, hS⟩ := randFold_ok (k := k) (next := W.randNext rnd it) W.nodePairs
    { dict := D, routes := 0, pairs := 0 } (fun p hp hc => by
      obtain ⟨-, hr⟩ := (h.counted it hp).1 hc
      obtain ⟨d, hd⟩ := h.dist it (mem_nodePairs.1 hp).1 hr
      obtain ⟨q, hq, -⟩ := h.hops it (mem_nodePairs.1 hp).1 hd
      rw [hq]; simp)
  obtain ⟨a1, a2, a3⟩ := randFold_some _ _ _ (nodePairs_nodup W) hS
  rw [h.filter it] at a2 a3
  refine ⟨S, hS, by simpa using a2, by simpa [total] using a3, ?_, a1⟩
  refine List.sum_le_sum fun p hp => ?_
  rw [a1 p]
  split
  · exact gain_size k _ p _
  · exact le_refl _

theorem total_le {D : RDict} (h : ∀ p rs, D p = some rs → EntryOK W k p rs) :
    total W D ≤ k.toNat * (connPairs W).length := by
  have : ∀ L : List (ℕ × ℕ), (L.map (fun p => nRoutes (D p))).sum ≤ k.toNat * L.length := by
    intro L
    induction L with
    | nil => simp
    | cons p L ih =>
      have hp : nRoutes (D p) ≤ k.toNat := by
        unfold nRoutes
        cases hD : D p with
        | none => simp
        | some rs => exact (h p rs hD).len
      simp only [List.map_cons, List.sum_cons, List.length_cons, Nat.mul_add, Nat.mul_one]
      omega
  exact this _

theorem RandNet.average (h : RandNet W rnd) {S : RState} (h1 : S.pairs = (connPairs W).length) :
    S.average W.g.fl = (S.routes : ℚ) / ((connPairs W).length : ℚ) := by
  unfold RState.average
  rw [h.exact, h1]
  split
  · rfl
  · rename_i hc
    have : (connPairs W).length = 0 := by omega
    rw [this]; simp

/-- The loop ends after a bounded number of iterations. -/
theorem RandNet.loop (h : RandNet W rnd) (k : ℤ) : ∀ (fuel it c T : ℕ) (D : RDict),
    (∀ p rs, D p = some rs → EntryOK W k p rs) → T ≤ total W D →
    12 * (k.toNat * (connPairs W).length) + 12 ≤ fuel + 12 * T + c →
    c ≤ 10 → ∃ D', W.randLoop k rnd fuel it c ((T : ℚ) / ((connPairs W).length : ℚ)) D = some D' := by
  intro fuel
  induction fuel with
  | zero =>
    intro it c T D hD hT hf hc
    have := total_le hD
    omega
  | succ fuel ih =>
    intro it c T D hD hT hf hc
    obtain ⟨S, a1, a2, a3, a4, -⟩ := h.iter k it D
    have hS := randIter_ok hD a1
    have hle := total_le hD
    rw [randLoop]
    simp only [a1]
    rw [h.average a2, a3]
    by_cases hz : (connPairs W).length = 0
    · have e : ((total W D : ℚ) / ((connPairs W).length : ℚ)) = (T : ℚ) / ((connPairs W).length : ℚ) := by
        rw [hz]; simp
      rw [if_pos e, if_pos e]
      split
      · exact ⟨_, rfl⟩
      · exact ih _ _ _ _ hS (hT.trans a4) (by omega) (by omega)
    · have hz' : ((connPairs W).length : ℚ) ≠ 0 := by exact_mod_cast hz
      by_cases he : total W D = T
      · rw [he, if_pos rfl, if_pos rfl]
        split
        · exact ⟨_, rfl⟩
        · exact ih _ _ _ _ hS (hT.trans a4) (by omega) (by omega)
      · have e : ¬ ((total W D : ℚ) / ((connPairs W).length : ℚ)) = (T : ℚ) / ((connPairs W).length : ℚ) := by
          intro e
          rw [div_left_inj' hz'] at e
          exact he (by exact_mod_cast e)
        rw [if_neg e, if_neg e, if_neg (by omega)]
        exact ih _ _ _ _ hS a4 (by omega) (by omega)

/-- What the entries of the connected pairs are after an iteration: with `k ≥ 1` the first route is the
one found with free-flow times. -/
structure FoundAll (W : CWorld) (rnd : ℕ → ℕ → ℚ) (k : ℤ) (D : RDict) : Prop where
  key : ∀ p, D p ≠ none ↔ p ∈ connPairs W
  first : 1 ≤ k → ∀ p ∈ connPairs W, ∃ r rest d, D p = some (r :: rest) ∧
    (dijkstra id W.g.nNodes (W.randAdj rnd 0) p.1).dist p.2 = some d ∧ weightSum W rnd 0 r = d

theorem RandNet.found0 (h : RandNet W rnd) {k : ℤ} {S : RState}
    (hi : W.randIter k rnd 0 (fun _ => none) = some S) : FoundAll W rnd k S.dict := by
  obtain ⟨S', a1, -, -, -, a5⟩ := h.iter k 0 (fun _ => none)
  rw [hi] at a1
  cases a1
  constructor
  · intro p
    rw [a5 p]
    split
    · rename_i hm
      have hc := h.counted 0 hm
      rw [mem_connPairs, ← mem_nodePairs, and_iff_right hm, ← hc]
      unfold gain Cpp.counted
      rw [decide_eq_true_iff]
      split
      · rename_i hx
        constructor
        · intro hx; exact absurd rfl hx
        · rintro ⟨h1, h2⟩; tauto
      · rename_i hx
        push Not at hx
        refine ⟨fun _ => hx, fun _ => ?_⟩
        split
        · simp
        · split
          · split <;> simp
          · simp
    · rename_i hm
      rw [mem_connPairs, ← mem_nodePairs]
      exact ⟨fun hx => absurd rfl hx, fun hx => absurd hx.1 hm⟩
  · intro hk p hp
    obtain ⟨hm, hne, hr⟩ := mem_connPairs.1 hp
    obtain ⟨d, hd⟩ := h.dist 0 hm.1 hr
    obtain ⟨r, hr1, hr2⟩ := h.hops 0 hm.1 hd
    have hm' := mem_nodePairs.2 hm
    have hc := (h.counted 0 hm').2 ⟨hne, hr⟩
    unfold Cpp.counted at hc
    rw [decide_eq_true_iff] at hc
    refine ⟨r, [], d, ?_, hd, hr2⟩
    obtain ⟨q, hq, hL⟩ := hopPath_leads _ _ _ _ hr1
    rw [List.nil_append] at hq
    subst hq
    have hrne : r ≠ [] := by
      rintro rfl
      exact hne hL
    rw [a5 p, if_pos hm']
    unfold gain
    rw [if_neg (by tauto), if_neg (by simp; omega)]
    simp only [hr1]
    simp [hrne]

theorem RandNet.found (h : RandNet W rnd) {k : ℤ} {it : ℕ} {D : RDict} {S : RState} (hD : FoundAll W rnd k D)
    (hi : W.randIter k rnd it D = some S) : FoundAll W rnd k S.dict := by
  obtain ⟨S', a1, -, -, -, a5⟩ := h.iter k it D
  rw [hi] at a1
  cases a1
  have hg : ∀ p ∈ connPairs W, ∃ rs more, D p = some rs ∧ S.dict p = some (rs ++ more) := by
    intro p hp
    obtain ⟨rs, hrs⟩ := Option.ne_none_iff_exists'.1 ((hD.key p).2 hp)
    refine ⟨rs, ?_⟩
    rw [a5 p, hrs]
    unfold gain
    simp only [Option.getD_some]
    split
    · split
      · exact ⟨[], trivial, by simp⟩
      · split
        · exact ⟨[], trivial, by simp⟩
        · split
          · split
            · exact ⟨[], trivial, by simp⟩
            · exact ⟨_, trivial, rfl⟩
          · exact ⟨[], trivial, by simp⟩
    · exact ⟨[], trivial, by simp⟩
  constructor
  · intro p
    constructor
    · intro hx
      by_contra hno
      have hn : D p = none := by
        by_contra hh
        exact hno ((hD.key p).1 hh)
      apply hx
      rw [a5 p, hn]
      split
      · rename_i hm
        have hc := h.counted it hm
        have hnc : ¬ Cpp.counted (W.randNext rnd it) p = true := fun hh =>
          hno (mem_connPairs.2 ⟨mem_nodePairs.1 hm, hc.1 hh⟩)
        unfold Cpp.counted at hnc
        rw [decide_eq_true_iff] at hnc
        unfold gain
        rw [if_pos (by tauto)]
      · rfl
    · intro hp
      obtain ⟨rs, more, -, e⟩ := hg p hp
      rw [e]; simp
  · intro hk p hp
    obtain ⟨r, rest, d, b1, b2⟩ := hD.first hk p hp
    obtain ⟨rs, more, e1, e2⟩ := hg p hp
    rw [b1] at e1
    cases e1
    exact ⟨r, rest ++ more, d, by rw [e2]; simp, b2⟩

theorem RandNet.all (h : RandNet W rnd) {k : ℤ} {fuel : ℕ} {D : RDict}
    (hr : W.randomRoutes k rnd fuel = some D) : FoundAll W rnd k D := by
  obtain ⟨it, h1, h2⟩ := randLoop_inv
    (P := fun it D => (it = 0 → D = fun _ => none) ∧ (0 < it → FoundAll W rnd k D))
    (fun it D S hP hi => by
      refine ⟨fun e => by omega, fun _ => ?_⟩
      rcases Nat.eq_zero_or_pos it with e | e
      · subst e
        rw [hP.1 rfl] at hi
        exact h.found0 hi
      · exact h.found (hP.2 e) hi) _ _ _ _ _ _ ⟨fun _ => rfl, fun e => by omega⟩ hr
  exact h2.2 h1

/-- Without parallel links a list of links is a walk that costs what it takes in free flow. -/
theorem RandNet.leads_cost (h : RandNet W rnd) (hp : NoParallel W) {t : ℕ} : ∀ (r : List ℕ) (s : ℕ),
    Leads W s t r → Walk id W.g.nNodes (W.randAdj rnd 0) s t (routeTime W r) := by
  intro r
  induction r with
  | nil => intro s hr; cases hr; exact Walk.nil
  | cons l r ih =>
    intro s hr
    obtain ⟨hl, hs, hr⟩ := hr
    obtain ⟨l', h1, he⟩ := h.edge 0 hl
    obtain ⟨b1, b2, b3⟩ := pairLink_some h1
    have := hp l' l b1 hl b2 b3
    subst this
    rw [hs] at he
    have hw := walk_trans he (ih _ hr)
    have e : W.randWeight rnd 0 l' = (W.link l').len / (W.link l').vmax := by
      unfold randWeight; rw [if_pos rfl, h.exact]; rfl
    rw [e] at hw
    simpa [routeTime] using hw

theorem RandNet.weight0 (h : RandNet W rnd) (r : List ℕ) : weightSum W rnd 0 r = routeTime W r := by
  unfold weightSum routeTime
  congr 1
  refine List.map_congr_left fun l _ => ?_
  unfold randWeight; rw [if_pos rfl, h.exact]; rfl

end UX.Cpp
