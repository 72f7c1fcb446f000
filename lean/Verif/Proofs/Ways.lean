import Verif.Model.Utilities
import Verif.Spec.Utilities
import Verif.Props.RouteChoice

/-! Ways along links, and what tables of shortest distances say about them. -/

namespace UX
open World

theorem pathEnd_nil (L : LinkF) (o : NodeId) : pathEnd L o [] = o := rfl

theorem pathEnd_cons' (L : LinkF) (o : NodeId) (l : LinkId) (r : List LinkId) :
    pathEnd L o (l :: r) = pathEnd L (L.endN l) r := by
  unfold pathEnd
  cases r with
  | nil => simp
  | cons a r =>
    rw [List.getLast?_cons_cons]
    cases h : (a :: r).getLast? with
    | none => simp at h
    | some b => rfl

theorem way_nil {W : World} {i k : NodeId} : Way W i k [] ↔ i = k :=
  ⟨fun h => h.goal, fun h => ⟨by simp, trivial, h⟩⟩

theorem way_cons {W : World} {i k : NodeId} {l : LinkId} {p : List LinkId} :
    Way W i k (l :: p) ↔ l < W.nLinks ∧ W.L.startN l = i ∧ Way W (W.L.endN l) k p := by
  constructor
  · rintro ⟨h1, h2, h3⟩
    rw [pathEnd_cons'] at h3
    exact ⟨h1 l (by simp), h2.1, fun a ha => h1 a (by simp [ha]), h2.2, h3⟩
  · rintro ⟨h1, h2, h3⟩
    refine ⟨?_, ⟨h2, h3.conn⟩, by rw [pathEnd_cons']; exact h3.goal⟩
    intro a ha
    rcases List.mem_cons.1 ha with rfl | ha
    · exact h1
    · exact h3.valid a ha

/-- Entries of the matrix of lengths. -/
theorem lengthFold (W : World) (ls : List LinkId) : ∀ i j,
    (ls.foldl W.lengthStep (fun _ _ => none) i j = none → ∀ l ∈ ls, ¬ (W.L.startN l = i ∧ W.L.endN l = j)) ∧
    ∀ q, ls.foldl W.lengthStep (fun _ _ => none) i j = some q →
      (∃ l ∈ ls, W.L.startN l = i ∧ W.L.endN l = j ∧ W.L.length l = q) ∧
      ∀ l ∈ ls, W.L.startN l = i → W.L.endN l = j → q ≤ W.L.length l := by
  induction ls using List.reverseRecOn with
  | nil => intro i j; simp
  | append_singleton ls a ih =>
    intro i j
    rw [List.foldl_append]
    simp only [List.foldl_cons, List.foldl_nil]
    obtain ⟨h1, h2⟩ := ih i j
    generalize ls.foldl W.lengthStep (fun _ _ => none) = c at h1 h2 ⊢
    unfold lengthStep
    by_cases hij : W.L.startN a = i ∧ W.L.endN a = j
    · obtain ⟨rfl, rfl⟩ := hij
      rw [upd_same, upd_same]
      refine ⟨by simp, ?_⟩
      intro q hq
      rw [Option.some.injEq] at hq
      split at hq
      · rename_i hn
        subst hq
        refine ⟨⟨a, by simp, rfl, rfl, rfl⟩, ?_⟩
        intro l hl e1 e2
        rw [List.mem_append, List.mem_singleton] at hl
        rcases hl with hl | rfl
        · exact absurd ⟨e1, e2⟩ (h1 hn l hl)
        · exact le_rfl
      · rename_i r hr
        obtain ⟨⟨b, b1, b2, b3, b4⟩, h3⟩ := h2 r hr
        subst hq
        constructor
        · rcases min_choice r (W.L.length a) with e | e
          · exact ⟨b, by simp [b1], b2, b3, by rw [e, b4]⟩
          · exact ⟨a, by simp, rfl, rfl, e.symm⟩
        · intro l hl e1 e2
          rw [List.mem_append, List.mem_singleton] at hl
          rcases hl with hl | rfl
          · exact (min_le_left _ _).trans (h3 l hl e1 e2)
          · exact min_le_right _ _
    · have e : ∀ q, upd c (W.L.startN a) (upd (c (W.L.startN a)) (W.L.endN a) q) i j = c i j := by
        intro q
        by_cases hi : i = W.L.startN a
        · subst hi
          rw [upd_same, upd_ne]
          exact fun e => hij ⟨rfl, e.symm⟩
        · rw [upd_ne _ _ hi]
      rw [e]
      constructor
      · intro hn l hl
        rw [List.mem_append, List.mem_singleton] at hl
        rcases hl with hl | rfl
        · exact h1 hn l hl
        · exact hij
      · intro q hq
        obtain ⟨⟨b, b1, b2⟩, h3⟩ := h2 q hq
        refine ⟨⟨b, by simp [b1], b2⟩, ?_⟩
        intro l hl e1 e2
        rw [List.mem_append, List.mem_singleton] at hl
        rcases hl with hl | rfl
        · exact h3 l hl e1 e2
        · exact absurd ⟨e1, e2⟩ hij

theorem follow_succ' (next : NodeId → NodeId → Option NodeId) (k i : NodeId) (s : ℕ) :
    follow next k i (s + 1) = (next i k).bind (fun j => follow next k j s) := by
  induction s with
  | zero =>
    simp only [follow, Option.bind_some]
    cases next i k <;> rfl
  | succ s ih =>
    rw [follow, ih]
    cases next i k <;> rfl

/-- A table of shortest distances for a matrix whose edges are links and whose entries are the least
link costs between two nodes gives the least cost of a way. -/
theorem ShortestPaths.ways {W : World} {c : NodeId → NodeId → Option ℚ} {f : LinkId → ℚ} {dist next}
    (hsp : ShortestPaths W.nNodes c dist next) (hpos : ∀ l < W.nLinks, 0 < f l)
    (hends : ∀ l < W.nLinks, W.L.startN l < W.nNodes ∧ W.L.endN l < W.nNodes)
    (hmem : ∀ i j q, c i j = some q → ∃ l < W.nLinks, W.L.startN l = i ∧ W.L.endN l = j ∧ f l = q)
    (hle : ∀ l < W.nLinks, ∃ q, c (W.L.startN l) (W.L.endN l) = some q ∧ q ≤ f l)
    {i k : NodeId} (hi : i < W.nNodes) (hk : k < W.nNodes) :
    (∀ d, dist i k = some d → (∃ p, Way W i k p ∧ costSum f p = d) ∧ ∀ p, Way W i k p → d ≤ costSum f p) ∧
      (dist i k = none → ∀ p, ¬ Way W i k p) := by
  have hedge : ∀ l < W.nLinks, ∃ q, Edge c (W.L.startN l) (W.L.endN l) q ∧ q ≤ f l := by
    intro l hl
    obtain ⟨q, h1, h2⟩ := hle l hl
    obtain ⟨l', h3, h4, h5, h6⟩ := hmem _ _ _ h1
    exact ⟨q, ⟨h1, by rw [← h6]; exact (hpos l' h3).ne'⟩, h2⟩
  have lower : ∀ (p : List LinkId) (i : NodeId), Way W i k p → ∃ d, dist i k = some d ∧ d ≤ costSum f p := by
    intro p
    induction p with
    | nil => intro i hw; rw [way_nil] at hw; subst hw; exact ⟨0, hsp.self _ hk, by simp [costSum]⟩
    | cons l p ih =>
      intro i hw
      obtain ⟨h1, rfl, h3⟩ := way_cons.1 hw
      obtain ⟨d, h4, h5⟩ := ih _ h3
      obtain ⟨q, h6, h7⟩ := hedge l h1
      obtain ⟨d', h8, h9⟩ := hsp.least _ _ _ q d (hends l h1).1 (hends l h1).2 hk h6 h4
      exact ⟨d', h8, by simp only [costSum, List.map_cons, List.sum_cons] at *; linarith⟩
  have joined : ∀ {i : NodeId} {d : ℚ}, i < W.nNodes → dist i k = some d → Joined W.nNodes c i k := by
    intro i d hi hd
    by_contra hc
    rw [(hsp.apart i k hi hk hc).1] at hd
    cases hd
  have exist : ∀ (m : ℕ) (i : NodeId), i < W.nNodes → follow next k i m = some k → ∀ d, dist i k = some d →
      ∃ p, Way W i k p ∧ costSum f p = d := by
    intro m
    induction m with
    | zero =>
      intro i hi hf d hd
      simp only [follow, Option.some.injEq] at hf
      subst hf
      rw [hsp.self _ hi, Option.some.injEq] at hd
      subst hd
      exact ⟨[], way_nil.2 rfl, by simp [costSum]⟩
    | succ m ih =>
      intro i hi hf d hd
      by_cases hik : i = k
      · subst hik
        rw [hsp.self _ hi, Option.some.injEq] at hd
        subst hd
        exact ⟨[], way_nil.2 rfl, by simp [costSum]⟩
      · obtain ⟨j, q, d', g1, g2, g3, g4, g5⟩ := hsp.hop i k hi hk hik (joined hi hd)
        rw [follow_succ', g2] at hf
        obtain ⟨p, p1, p2⟩ := ih j g1 hf d' g4
        obtain ⟨l, l1, l2, l3, l4⟩ := hmem i j q g3.1
        subst l3
        refine ⟨l :: p, way_cons.2 ⟨l1, l2, p1⟩, ?_⟩
        rw [g5, Option.some.injEq] at hd
        subst hd
        simp only [costSum, List.map_cons, List.sum_cons] at *
        rw [p2, l4]
  constructor
  · intro d hd
    constructor
    · obtain ⟨m, -, hf, -⟩ := hsp.leads (fun a b q _ _ hq => by
        obtain ⟨l, l1, -, -, l4⟩ := hmem a b q hq.1
        rw [← l4]; exact hpos l l1) hi hk (joined hi hd)
      exact exist m i hi hf d hd
    · intro p hp
      obtain ⟨d', e1, e2⟩ := lower p i hp
      rw [hd, Option.some.injEq] at e1
      rw [e1]; exact e2
  · intro hn p hp
    obtain ⟨d', e1, -⟩ := lower p i hp
    rw [hn] at e1; cases e1

end UX
