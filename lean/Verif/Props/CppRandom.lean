import Verif.Proofs.CppRandomEnds
import Verif.Props.CppKin
import Verif.Props.CppPlaces

/-! # C112: random routes of the C++ engine -/

namespace UX
open Cpp Cpp.Spec Cpp.CWorld

/-- **C112.** Whatever numbers are drawn, with any rounding: if the search ends, every entry belongs to
two different nodes and has at most `k` routes, all different. Each is a list of links that leads from
the one node to the other and passes no node twice. -/
theorem C112_routes {W : CWorld} {k : ℤ} {rnd : ℕ → ℕ → ℚ} {fuel : ℕ} {D : RDict}
    (h : W.randomRoutes k rnd fuel = some D) {s t : ℕ} {rs : List (List ℕ)} (hD : D (s, t) = some rs) :
    s ≠ t ∧ rs.length ≤ k.toNat ∧ rs.Nodup ∧
      ∀ r ∈ rs, Leads W s t r ∧ (stops W s r).Nodup := by
  have := randomRoutes_ok h (s, t) rs hD
  exact ⟨this.ne, this.len, this.once, fun r hr => (this.way r hr).2⟩

theorem Cpp.leads_lt {W : CWorld} (hW : CReach W) {s t : ℕ} (hst : s ≠ t) : ∀ {r : List ℕ}, Leads W s t r →
    s < W.g.nNodes ∧ t < W.g.nNodes := by
  intro r
  induction r generalizing s with
  | nil => intro hr; exact absurd hr hst
  | cons l r ih =>
    rintro ⟨hl, hs, hr⟩
    obtain ⟨e1, e2⟩ := (C79_network hW).2.2 l hl
    refine ⟨hs ▸ e1, ?_⟩
    by_cases hc : (W.link l).dst = t
    · exact hc ▸ e2
    · exact (ih hc hr).2

theorem Cpp.randNet {W : CWorld} (hW : CReach W) (hfl : W.g.fl = id) (hp : Passable W) {rnd : ℕ → ℕ → ℚ}
    (hd : ∀ it l, 0 < rnd it l) : RandNet W rnd :=
  ⟨hfl, (C79_network hW).2.2, hp, hd⟩

/-- **C112.** With links of positive length and speed and positive draws, in exact arithmetic, the search
ends. The keys are exactly the pairs of different nodes that are connected by links. A network without
links is no exception. -/
theorem C112_ends {W : CWorld} (hW : CReach W) (hfl : W.g.fl = id) (hp : Passable W) {rnd : ℕ → ℕ → ℚ}
    (hd : ∀ it l, 0 < rnd it l) (k : ℤ) : ∃ N : ℕ, ∀ fuel, N ≤ fuel → ∃ D,
      W.randomRoutes k rnd fuel = some D ∧ ∀ s t, D (s, t) ≠ none ↔ s ≠ t ∧ ∃ r, Leads W s t r := by
  have h := randNet hW hfl hp hd
  refine ⟨12 * (k.toNat * (connPairs W).length) + 12, fun fuel hf => ?_⟩
  obtain ⟨D, hD⟩ := h.loop k fuel 0 0 0 (fun _ => none) (fun p rs e => by cases e) (Nat.zero_le _)
    (by omega) (by omega)
  have hD : W.randomRoutes k rnd fuel = some D := by simpa [randomRoutes] using hD
  refine ⟨D, hD, fun s t => ?_⟩
  rw [(h.all hD).key, mem_connPairs]
  refine ⟨fun h => h.2, fun hst => ⟨?_, hst⟩⟩
  obtain ⟨hne, r, hr⟩ := hst
  exact leads_lt hW hne hr

/-- **C112.** With `k ≥ 1` and without parallel links, the first route of every connected pair is a
fastest one in free flow. -/
theorem C112_first {W : CWorld} (hW : CReach W) (hfl : W.g.fl = id) (hp : Passable W) (hpar : NoParallel W)
    {rnd : ℕ → ℕ → ℚ} (hd : ∀ it l, 0 < rnd it l) {k : ℤ} (hk : 1 ≤ k) {fuel : ℕ} {D : RDict}
    (h : W.randomRoutes k rnd fuel = some D) {s t : ℕ} (hst : s ≠ t) {p : List ℕ} (hl : Leads W s t p) :
    ∃ r rest, D (s, t) = some (r :: rest) ∧ Leads W s t r ∧
      ∀ q, Leads W s t q → routeTime W r ≤ routeTime W q := by
  have hn := randNet hW hfl hp hd
  have hlt := leads_lt hW hst hl
  obtain ⟨r, rest, d, a1, a2, a3⟩ := (hn.all h).first hk (s, t) (mem_connPairs.2 ⟨hlt, hst, p, hl⟩)
  refine ⟨r, rest, a1, ((C112_routes h a1).2.2.2 r (by simp)).1, fun q hq => ?_⟩
  rw [← hn.weight0 r, a3]
  exact (((C77_distance flOK_id _ hlt.1 t).1 d).1 a2).2 _ (hn.leads_cost hpar q s hq)

/-! ## Concrete cases -/

namespace Cpp

def rndArgs (len : ℚ) : LinkArgs := { cppSigArgs with len := len }

/-- Three nodes; `0 → 1 → 2` is faster than `0 → 2`. -/
def cppRnd : CWorld :=
  let W0 := CWorld.empty id 200 5 1 10 (1/2) 0 true false false false true 1
  let W1 := (((W0.addNodeWith (0, 0) [0] 0 (-1) 0 (fun _ => 0)).addNodeWith (0, 0) [0] 0 (-1) 0
    (fun _ => 0))).addNodeWith (0, 0) [0] 0 (-1) 0 (fun _ => 0)
  ((W1.addLink 0 2 (rndArgs 500)).addLink 0 1 (rndArgs 100)).addLink 1 2 (rndArgs 200)

/-- A link of length 0. -/
def cppRndZero : CWorld :=
  let W0 := CWorld.empty id 200 5 1 10 (1/2) 0 true false false false true 1
  ((W0.addNodeWith (0, 0) [0] 0 (-1) 0 (fun _ => 0)).addNodeWith (0, 0) [0] 0 (-1) 0
    (fun _ => 0)).addLink 0 1 (rndArgs 0)

/-- One link. -/
def cppRndOne : CWorld :=
  let W0 := CWorld.empty id 200 5 1 10 (1/2) 0 true false false false true 1
  ((W0.addNodeWith (0, 0) [0] 0 (-1) 0 (fun _ => 0)).addNodeWith (0, 0) [0] 0 (-1) 0
    (fun _ => 0)).addLink 0 1 (rndArgs 100)

/-- Two parallel links, the slower one last. -/
def cppRndTwo : CWorld := cppRndOne.addLink 0 1 (rndArgs 200)

/-- Draws that make the detour and the direct link best in turn. -/
def rndTurn (it l : ℕ) : ℚ := if it % 2 = 0 then (if l = 0 then 1 else 50) else 1

/-- Draws that are 0 in every other iteration. -/
def rndZero (it _l : ℕ) : ℚ := if it % 2 = 0 then 1 else 0

theorem rnd_nodes (n : ℕ) : SteadyReach ((fun W : CWorld => W.addNodeWith (0, 0) [0] 0 (-1) 0 (fun _ => 0))^[n]
    (CWorld.empty id 200 5 1 10 (1/2) 0 true false false false true 1)) ∧
    ((fun W : CWorld => W.addNodeWith (0, 0) [0] 0 (-1) 0 (fun _ => 0))^[n]
      (CWorld.empty id 200 5 1 10 (1/2) 0 true false false false true 1)).g.nLinks = 0 := by
  induction n with
  | zero => exact ⟨SteadyReach.empty id 200 5 1 10 (1/2) 0 true false false false true 1, rfl⟩
  | succ n ih =>
    rw [Function.iterate_succ_apply']
    exact ⟨steady_node (q := (0, 0)) ih.1 (fuel := 1) rfl (fun l hl => by rw [ih.2] at hl; omega), ih.2⟩

theorem cppRnd_reach : CReach cppRnd := by
  have h3 := (rnd_nodes 3).1
  refine SteadyReach.toClean (W := cppRnd) ?_ |>.toReach
  unfold cppRnd
  refine steady_link ?_ rfl (by decide +kernel) (by decide +kernel) (by decide +kernel) (by decide +kernel)
  refine steady_link ?_ rfl (by decide +kernel) (by decide +kernel) (by decide +kernel) (by decide +kernel)
  refine steady_link ?_ rfl (by decide +kernel) (by decide +kernel) (by decide +kernel) (by decide +kernel)
  exact h3

theorem cppRndZero_reach : CReach cppRndZero := by
  have h3 := (rnd_nodes 2).1
  refine SteadyReach.toClean (W := cppRndZero) ?_ |>.toReach
  unfold cppRndZero
  refine steady_link ?_ rfl (by decide +kernel) (by decide +kernel) (by decide +kernel) (by decide +kernel)
  exact h3

theorem cppRndOne_steady : SteadyReach cppRndOne := by
  have h3 := (rnd_nodes 2).1
  unfold cppRndOne
  refine steady_link ?_ rfl (by decide +kernel) (by decide +kernel) (by decide +kernel) (by decide +kernel)
  exact h3

theorem cppRndTwo_reach : CReach cppRndTwo := by
  refine SteadyReach.toClean (W := cppRndTwo) ?_ |>.toReach
  exact steady_link cppRndOne_steady rfl (by decide +kernel) (by decide +kernel) (by decide +kernel) (by decide +kernel)

end Cpp

/-- The fast detour is found first, the direct link second. -/
theorem C112_case : CReach cppRnd ∧ cppRnd.g.fl = id ∧ Passable cppRnd ∧ NoParallel cppRnd ∧
    (∀ it l, 0 < rndTurn it l) ∧ ∃ D, cppRnd.randomRoutes 3 rndTurn 20 = some D ∧
      D (0, 2) = some [[1, 2], [0]] ∧ D (0, 1) = some [[1]] ∧ D (2, 1) = none := by
  refine ⟨cppRnd_reach, rfl, by unfold Passable; decide +kernel, ?_, ?_, ?_⟩
  · have h : ∀ a, a < 3 → ∀ b, b < 3 → (cppRnd.link a).src = (cppRnd.link b).src →
      (cppRnd.link a).dst = (cppRnd.link b).dst → a = b := by decide +kernel
    intro a b ha hb
    exact h a ha b hb
  · intro it l
    unfold rndTurn
    split
    · split <;> norm_num
    · norm_num
  · have h : (match cppRnd.randomRoutes 3 rndTurn 20 with
      | some D => decide (D (0, 2) = some [[1, 2], [0]] ∧ D (0, 1) = some [[1]] ∧ D (2, 1) = none)
      | none => false) = true := by decide +kernel
    cases hD : cppRnd.randomRoutes 3 rndTurn 20 with
    | none => rw [hD] at h; cases h
    | some D =>
      rw [hD] at h
      exact ⟨D, rfl, of_decide_eq_true h⟩

/-- With two parallel links of 5 s and 10 s the only route found is the slow one. -/
theorem C112_parallel_false : ∃ W rnd k fuel D, CReach W ∧ W.g.fl = id ∧ Passable W ∧
    (∀ it l, 0 < rnd it l) ∧ W.randomRoutes k rnd fuel = some D ∧ 2 ≤ k ∧ D (0, 1) = some [[1]] ∧
    Leads W 0 1 [0] ∧ routeTime W [0] < routeTime W [1] := by
  have h : (match cppRndTwo.randomRoutes 2 (fun _ _ => 1) 20 with
      | some D => decide (D (0, 1) = some [[1]])
      | none => false) = true := by decide +kernel
  cases hD : cppRndTwo.randomRoutes 2 (fun _ _ => 1) 20 with
  | none => rw [hD] at h; cases h
  | some D =>
    rw [hD] at h
    refine ⟨cppRndTwo, fun _ _ => 1, 2, 20, D, cppRndTwo_reach, rfl, ?_, fun _ _ => one_pos, hD, le_refl _,
      of_decide_eq_true h, ?_, ?_⟩
    · unfold Passable; decide +kernel
    · simp only [Leads]; decide +kernel
    · unfold routeTime; decide +kernel

/-- A link of length 0 is not seen: two nodes it connects have no entry, whatever is drawn. -/
theorem C112_zero_length_false : ∃ W, CReach W ∧ Leads W 0 1 [0] ∧ (W.link 0).len = 0 ∧ (W.link 0).vmax = 20 ∧
    ∀ k rnd, ∃ N : ℕ, ∀ fuel, N ≤ fuel → ∃ D, W.randomRoutes k rnd fuel = some D ∧ D (0, 1) = none := by
  refine ⟨cppRndZero, cppRndZero_reach, by simp only [Leads]; decide +kernel, rfl, rfl, fun k rnd => ?_⟩
  have hw : ∀ it l, l = 0 → cppRndZero.randWeight rnd it l = 0 := by
    rintro it l rfl
    have e : (cppRndZero.link 0).len = 0 := rfl
    have e2 : cppRndZero.g.fl = id := rfl
    unfold randWeight
    rw [e, e2]
    simp
  have hadj : ∀ it, cppRndZero.randAdj rnd it = fun _ _ => some 0 := by
    intro it
    funext a b
    have e : cppRndZero.g.nLinks = 1 := rfl
    unfold randAdj
    rw [e]
    simp [List.range_succ, hw it 0 rfl]
  have hnext : ∀ it, cppRndZero.randNext rnd it =
      fun a b => (dijkstra id 2 (fun _ _ => some 0) a).next b := by
    intro it
    unfold randNext
    rw [hadj it]
    rfl
  have hit : ∀ it D, cppRndZero.randIter k rnd it D = some ⟨D, 0, 0⟩ := by
    intro it D
    unfold randIter
    rw [hnext it]
    have e : cppRndZero.nodePairs = [(0, 0), (0, 1), (1, 0), (1, 1)] := by decide +kernel
    have n1 : (dijkstra id 2 (fun _ _ => some 0) 0).next 1 = none := by decide +kernel
    have n2 : (dijkstra id 2 (fun _ _ => some 0) 1).next 0 = none := by decide +kernel
    rw [e]
    simp [List.foldlM_cons, List.foldlM_nil, randPair, n1, n2]
  have key : ∀ fuel it c, c ≤ 10 → 11 ≤ fuel + c →
      cppRndZero.randLoop k rnd fuel it c 0 (fun _ => none) = some (fun _ => none) := by
    intro fuel
    induction fuel with
    | zero => intro it c h1 h2; omega
    | succ fuel ih =>
      intro it c h1 h2
      rw [randLoop, hit]
      simp only [RState.average, lt_irrefl, if_false, if_true]
      split
      · rfl
      · exact ih _ _ (by omega) (by omega)
  exact ⟨11, fun fuel hf => ⟨_, key fuel 0 0 (by omega) (by omega), rfl⟩⟩

/-- The numbers drawn may be 0. If the only link draws 0 in every other iteration, the search never ends. -/
theorem C112_zero_draw_false : ∃ W rnd, CReach W ∧ W.g.fl = id ∧ Passable W ∧
    (∀ it l, 0 ≤ rnd it l ∧ rnd it l < 100) ∧ ∀ fuel, W.randomRoutes 1 rnd fuel = none := by
  refine ⟨cppRndOne, rndZero, cppRndOne_steady.toClean.toReach, rfl, by unfold Passable; decide +kernel, ?_, ?_⟩
  · intro it l
    unfold rndZero
    split <;> norm_num
  have hadj : ∀ it it', (it = 0 ↔ it' = 0) → it % 2 = it' % 2 →
      cppRndOne.randNext rndZero it = cppRndOne.randNext rndZero it' := by
    intro it it' h0 h2
    have : cppRndOne.randWeight rndZero it = cppRndOne.randWeight rndZero it' := by
      funext l
      unfold randWeight rndZero
      rw [h2]
      simp only [h0]
    unfold randNext randAdj
    rw [this]
  -- iterations with weights of 0 find no pair
  have hodd : ∀ it D, it % 2 = 1 → ∃ S, cppRndOne.randIter 1 rndZero it D = some S ∧ S.pairs = 0 ∧
      S.dict (0, 1) = D (0, 1) := by
    intro it D h
    have e := hadj it 1 (by omega) (by omega)
    have hf : cppRndOne.nodePairs.filter (counted (cppRndOne.randNext rndZero 1)) = [] := by decide +kernel
    obtain ⟨S, hS⟩ := randFold_ok (W := cppRndOne) (k := 1) (next := cppRndOne.randNext rndZero 1) cppRndOne.nodePairs
      { dict := D, routes := 0, pairs := 0 } (by decide +kernel)
    obtain ⟨a1, a2, -⟩ := randFold_some _ _ _ (nodePairs_nodup _) hS
    refine ⟨S, by unfold randIter; rw [e]; exact hS, by rw [a2, hf]; rfl, ?_⟩
    rw [a1 (0, 1), if_pos (by decide +kernel)]
    have n1 : cppRndOne.randNext rndZero 1 0 1 = none := by decide +kernel
    unfold gain
    rw [if_pos (.inr n1)]
  -- the others find the one pair
  have heven : ∀ it D, it % 2 = 0 → it ≠ 0 → D (0, 1) = some [[0]] →
      ∃ S, cppRndOne.randIter 1 rndZero it D = some S ∧ S.pairs = 1 ∧ S.routes = 1 ∧
      S.dict (0, 1) = some [[0]] := by
    intro it D h h0 hD
    have e := hadj it 2 (by omega) (by omega)
    have hf : cppRndOne.nodePairs.filter (counted (cppRndOne.randNext rndZero 2)) = [(0, 1)] := by decide +kernel
    obtain ⟨S, hS⟩ := randFold_ok (W := cppRndOne) (k := 1) (next := cppRndOne.randNext rndZero 2) cppRndOne.nodePairs
      { dict := D, routes := 0, pairs := 0 } (by decide +kernel)
    obtain ⟨a1, a2, a3⟩ := randFold_some _ _ _ (nodePairs_nodup _) hS
    refine ⟨S, by unfold randIter; rw [e]; exact hS, by rw [a2, hf]; rfl, ?_, ?_⟩
    · rw [a3, hf]
      simp [hD, nRoutes]
    · rw [a1 (0, 1), if_pos (by decide +kernel)]
      dsimp only
      rw [hD]
      have n1 : ¬ (((0, 1) : ℕ × ℕ).1 = ((0, 1) : ℕ × ℕ).2 ∨
        cppRndOne.randNext rndZero 2 ((0, 1) : ℕ × ℕ).1 ((0, 1) : ℕ × ℕ).2 = none) := by decide +kernel
      unfold gain
      rw [if_neg n1, if_pos (by decide)]
      rfl
  have hid : cppRndOne.g.fl = id := rfl
  have key : ∀ fuel it c D, it % 2 = 0 → it ≠ 0 → c ≤ 10 → D (0, 1) = some [[0]] →
      cppRndOne.randLoop 1 rndZero fuel it c 0 D = none ∧
      cppRndOne.randLoop 1 rndZero fuel (it + 1) c 1 D = none := by
    intro fuel
    induction fuel with
    | zero => intro it c D _ _ _ _; exact ⟨rfl, rfl⟩
    | succ fuel ih =>
      intro it c D h2 h0 hc hD
      constructor
      · obtain ⟨S, a1, a2, a3, a4⟩ := heven it D h2 h0 hD
        rw [randLoop, a1]
        have ha : S.average cppRndOne.g.fl = 1 := by rw [RState.average, a2, a3, hid]; norm_num
        simp only [ha, one_ne_zero, if_false]
        exact (ih it 0 S.dict h2 h0 (by omega) a4).2
      · obtain ⟨S, a1, a2, a4⟩ := hodd (it + 1) D (by omega)
        rw [randLoop, a1]
        have ha : S.average cppRndOne.g.fl = 0 := by rw [RState.average, a2]; rfl
        simp only [ha, zero_ne_one, if_false]
        exact (ih (it + 2) 0 S.dict (by omega) (by omega) (by omega) (a4.trans hD)).1
  intro fuel
  unfold randomRoutes
  have h00 : (match cppRndOne.randIter 1 rndZero 0 (fun _ => none) with
    | some S => decide (S.dict (0, 1) = some [[0]] ∧ S.routes = 0 ∧ S.pairs = 1)
    | none => false) = true := by decide +kernel
  cases hS : cppRndOne.randIter 1 rndZero 0 (fun _ => none) with
  | none => rw [hS] at h00; cases h00
  | some S =>
    rw [hS] at h00
    obtain ⟨b1, b2, b3⟩ := of_decide_eq_true h00
    cases fuel with
    | zero => rfl
    | succ fuel =>
      rw [randLoop, hS]
      have ha : S.average cppRndOne.g.fl = 0 := by rw [RState.average, b2, b3, hid]; norm_num
      simp only [ha, if_true]
      rw [if_neg (by omega)]
      cases fuel with
      | zero => rfl
      | succ fuel =>
        obtain ⟨S1, a1, a2, a4⟩ := hodd 1 S.dict (by omega)
        rw [randLoop, a1]
        have ha : S1.average cppRndOne.g.fl = 0 := by rw [RState.average, a2]; rfl
        simp only [ha, if_true]
        rw [if_neg (by omega)]
        exact (key fuel 2 _ S1.dict (by omega) (by omega) (by omega) (a4.trans b1)).1

end UX
