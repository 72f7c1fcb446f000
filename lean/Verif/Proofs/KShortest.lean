import Verif.Proofs.Ways
import Mathlib.Data.List.Sort
import Mathlib.Data.List.Permutation
import Mathlib.Data.List.Sublists

/-! Paths of nodes and routes of links in networks without parallel links. -/

namespace UX
open World

/-- Edge weights: the last link between two nodes. -/
theorem graphOf_iff (W : World) (cost : LinkId → ℚ) (i j : NodeId) (q : ℚ) :
    W.graphOf cost i j = some q ↔ ∃ l, W.LastOf l ∧ W.L.startN l = i ∧ W.L.endN l = j ∧ cost l = q := by
  have key : ∀ n : ℕ, ∀ i j q, (List.range n).foldl (fun g l => upd g (W.L.startN l)
      (upd (g (W.L.startN l)) (W.L.endN l) (some (cost l)))) (fun _ _ => none) i j = some q ↔
      ∃ l : ℕ, (l < n ∧ ∀ k, l < k → k < n → W.L.startN k = W.L.startN l → W.L.endN k ≠ W.L.endN l) ∧
        W.L.startN l = i ∧ W.L.endN l = j ∧ cost l = q := by
    intro n
    induction n with
    | zero => intro i j q; simp
    | succ n ih =>
      intro i j q
      rw [List.range_succ, List.foldl_append]
      simp only [List.foldl_cons, List.foldl_nil]
      by_cases hij : W.L.startN n = i ∧ W.L.endN n = j
      · obtain ⟨rfl, rfl⟩ := hij
        rw [upd_same, upd_same, Option.some.injEq]
        constructor
        · rintro rfl
          exact ⟨n, ⟨by omega, fun k h1 h2 => by omega⟩, rfl, rfl, rfl⟩
        · rintro ⟨l, ⟨h1, h2⟩, h3, h4, h5⟩
          by_cases hl : l = n
          · rw [← hl, h5]
          · exact absurd h4.symm (h2 n (by omega) (by omega) h3.symm)
      · have e : ∀ (c : NodeId → NodeId → Option ℚ) r,
            upd c (W.L.startN n) (upd (c (W.L.startN n)) (W.L.endN n) r) i j = c i j := by
          intro c r
          by_cases hi : i = W.L.startN n
          · subst hi
            rw [upd_same, upd_ne]
            exact fun e => hij ⟨rfl, e.symm⟩
          · rw [upd_ne _ _ hi]
        rw [e, ih]
        constructor
        · rintro ⟨l, ⟨h1, h2⟩, h3, h4, h5⟩
          refine ⟨l, ⟨by omega, fun k k1 k2 k3 k4 => ?_⟩, h3, h4, h5⟩
          by_cases hk : k = n
          · subst hk; exact hij ⟨k3.trans h3, k4.trans h4⟩
          · exact h2 k k1 (by omega) k3 k4
        · rintro ⟨l, ⟨h1, h2⟩, h3, h4, h5⟩
          by_cases hl : l = n
          · subst hl; exact absurd ⟨h3, h4⟩ hij
          · exact ⟨l, ⟨by omega, fun k k1 k2 => h2 k k1 (by omega)⟩, h3, h4, h5⟩
  exact key W.nLinks i j q

/-- The links from `a` to `b`, in order. -/
def linksFrom (W : World) (a b : NodeId) : List LinkId :=
  (List.range W.nLinks).filter fun l => decide (W.L.startN l = a) && decide (some b = some (W.L.endN l))

/-- All links between consecutive nodes. -/
def linksAlong (W : World) : List NodeId → List LinkId
  | a :: b :: p => linksFrom W a b ++ linksAlong W (b :: p)
  | _ => []

theorem linksAlong_zip (W : World) (p : List NodeId) :
    (p.dropLast.zip p.tail).flatMap (fun ab => linksFrom W ab.1 ab.2) = linksAlong W p := by
  induction p with
  | nil => rfl
  | cons a p ih =>
    cases p with
    | nil => rfl
    | cons b p =>
      simp only [List.dropLast_cons_cons, List.tail_cons, List.zip_cons_cons, List.flatMap_cons, linksAlong] at *
      rw [ih]

theorem routeOf_eq (W : World) {p : List NodeId} (hp : p.Nodup) : W.routeOf p = linksAlong W p := by
  rw [← linksAlong_zip]
  unfold routeOf
  rw [List.flatMap_def, List.flatMap_def]
  congr 1
  apply List.ext_getElem
  · simp
  · intro i h1 h2
    simp only [List.length_map, List.length_dropLast] at h1
    have hi : i < p.length := by omega
    simp only [List.getElem_map, List.getElem_zip, List.getElem_tail, List.getElem_dropLast]
    unfold linksFrom
    rw [List.Nodup.idxOf_getElem hp, List.getElem?_eq_getElem (by omega)]

theorem pathWeight_eq (g : NodeId → NodeId → Option ℚ) (p : List NodeId) : pathWeight g p = edgeSum g p := by
  unfold pathWeight
  induction p with
  | nil => rfl
  | cons a p ih =>
    cases p with
    | nil => rfl
    | cons b p =>
      simp only [List.dropLast_cons_cons, List.tail_cons, List.zip_cons_cons, List.map_cons, List.sum_cons,
        edgeSum] at *
      rw [ih]

theorem linksFrom_single {W : World} (hp : NoParallel W) {l : LinkId} (hl : l < W.nLinks) :
    linksFrom W (W.L.startN l) (W.L.endN l) = [l] := by
  have hm : ∀ k, k ∈ linksFrom W (W.L.startN l) (W.L.endN l) ↔ k = l := by
    intro k
    unfold linksFrom
    rw [List.mem_filter, List.mem_range]
    simp only [Bool.and_eq_true, decide_eq_true_eq, Option.some.injEq]
    constructor
    · rintro ⟨h1, h2, h3⟩; exact hp k h1 l hl h2 h3.symm
    · rintro rfl; exact ⟨hl, rfl, rfl⟩
  have hn : (linksFrom W (W.L.startN l) (W.L.endN l)).Nodup := List.nodup_range.filter _
  have : (linksFrom W (W.L.startN l) (W.L.endN l)).Perm [l] :=
    (List.perm_ext_iff_of_nodup hn (List.nodup_singleton l)).2 (fun a => by rw [hm, List.mem_singleton])
  exact List.perm_singleton.1 this

theorem lastOf_of {W : World} (hp : NoParallel W) {l : LinkId} (hl : l < W.nLinks) : W.LastOf l :=
  ⟨hl, fun k h1 h2 h3 h4 => by have := hp k h2 l hl h3 h4; subst this; exact Nat.lt_irrefl _ h1⟩

/-- A path of nodes along edges gives a way with the same stops and cost. -/
theorem linksAlong_way {W : World} (hp : NoParallel W) (cost : LinkId → ℚ) : ∀ (p : List NodeId) (a t : NodeId),
    p.head? = some a → p.getLast? = some t → p.IsChain (fun a b => W.graphOf cost a b ≠ none) →
    Way W a t (linksAlong W p) ∧ stops W a (linksAlong W p) = p ∧
      costSum cost (linksAlong W p) = edgeSum (W.graphOf cost) p := by
  intro p
  induction p with
  | nil => intro a t h; simp at h
  | cons a p ih =>
    intro a' t h1 h2 h3
    simp only [List.head?_cons, Option.some.injEq] at h1
    subst h1
    cases p with
    | nil =>
      simp only [List.getLast?_singleton, Option.some.injEq] at h2
      exact ⟨way_nil.2 h2, rfl, rfl⟩
    | cons b p =>
      rw [List.isChain_cons_cons] at h3
      rw [List.getLast?_cons_cons] at h2
      obtain ⟨i1, i2, i3⟩ := ih b t rfl h2 h3.2
      obtain ⟨q, hq⟩ := Option.ne_none_iff_exists'.1 h3.1
      obtain ⟨l, l1, l2, l3, l4⟩ := (graphOf_iff W cost a b q).1 hq
      have hs : linksFrom W a b = [l] := by rw [← l2, ← l3]; exact linksFrom_single hp l1.1
      rw [linksAlong, hs, List.singleton_append]
      refine ⟨way_cons.2 ⟨l1.1, l2, by rw [l3]; exact i1⟩, ?_, ?_⟩
      · unfold stops at i2 ⊢
        rw [List.map_cons, l3, i2]
      · rw [edgeSum, ← i3, hq]
        simp only [costSum, List.map_cons, List.sum_cons, Option.getD_some, l4]

/-- A way gives a path of nodes. -/
theorem way_path {W : World} (hp : NoParallel W) (cost : LinkId → ℚ) : ∀ (r : List LinkId) (a t : NodeId),
    Way W a t r → (stops W a r).head? = some a ∧ (stops W a r).getLast? = some t ∧
      (stops W a r).IsChain (fun a b => W.graphOf cost a b ≠ none) ∧ linksAlong W (stops W a r) = r := by
  intro r
  induction r with
  | nil =>
    intro a t h
    rw [way_nil] at h
    subst h
    simp [stops, linksAlong]
  | cons l r ih =>
    intro a t h
    obtain ⟨h1, rfl, h3⟩ := way_cons.1 h
    obtain ⟨i1, i2, i3, i4⟩ := ih _ _ h3
    have hs : stops W (W.L.startN l) (l :: r) = W.L.startN l :: stops W (W.L.endN l) r := rfl
    rw [hs]
    refine ⟨rfl, ?_, ?_, ?_⟩
    · unfold stops at i2 ⊢
      rw [List.getLast?_cons_cons]; exact i2
    · unfold stops at i3 ⊢
      rw [List.isChain_cons_cons]
      refine ⟨?_, i3⟩
      rw [(graphOf_iff W cost _ _ (cost l)).2 ⟨l, lastOf_of hp h1, rfl, rfl, rfl⟩]
      simp
    · unfold stops at i4 ⊢
      rw [linksAlong, i4, linksFrom_single hp h1]
      rfl

/-! ### A routine that meets the specification -/

instance (g : NodeId → NodeId → Option ℚ) (s t : NodeId) (p : List NodeId) : Decidable (SimplePath g s t p) :=
  decidable_of_iff (p.head? = some s ∧ p.getLast? = some t ∧ p.IsChain (fun a b => g a b ≠ none) ∧ p.Nodup)
    ⟨fun h => ⟨h.1, h.2.1, h.2.2.1, h.2.2.2⟩, fun h => ⟨h.1, h.2, h.3, h.4⟩⟩

/-- All simple paths among the first `n` nodes by increasing cost. -/
def refPaths (n : ℕ) (g : NodeId → NodeId → Option ℚ) (s t : NodeId) : List (List NodeId) :=
  ((((List.range n).sublists.flatMap List.permutations').dedup.filter (fun p => decide (SimplePath g s t p))).insertionSort
    (fun p q => edgeSum g p ≤ edgeSum g q))

theorem chain_lt {g : NodeId → NodeId → Option ℚ} {n : ℕ} (hg : ∀ i j, g i j ≠ none → j < n) :
    ∀ (p : List NodeId) (a : NodeId), a < n → (a :: p).IsChain (fun a b => g a b ≠ none) → ∀ b ∈ a :: p, b < n := by
  intro p
  induction p with
  | nil => intro a ha _ b hb; rw [List.mem_singleton] at hb; rw [hb]; exact ha
  | cons c p ih =>
    intro a ha h b hb
    rw [List.isChain_cons_cons] at h
    rcases List.mem_cons.1 hb with rfl | hb
    · exact ha
    · exact ih c (hg _ _ h.1) h.2 b hb

theorem refPaths_ok {n : ℕ} {g : NodeId → NodeId → Option ℚ} (hg : ∀ i j, g i j ≠ none → j < n) {s : NodeId}
    (hs : s < n) (t : NodeId) : AllSimplePaths g s t (refPaths n g s t) := by
  refine ⟨fun p => ?_, ?_, ?_⟩
  · unfold refPaths
    rw [(List.perm_insertionSort _ _).mem_iff, List.mem_filter, List.mem_dedup, List.mem_flatMap,
      decide_eq_true_eq]
    refine ⟨fun h => h.2, fun h => ⟨?_, h⟩⟩
    refine ⟨(List.range n).filter (fun a => decide (a ∈ p)), List.mem_sublists.2 List.filter_sublist, ?_⟩
    rw [List.mem_permutations']
    refine (List.perm_ext_iff_of_nodup h.simple (List.nodup_range.filter _)).2 fun a => ?_
    rw [List.mem_filter, List.mem_range, decide_eq_true_eq]
    refine ⟨fun ha => ⟨?_, ha⟩, fun ha => ha.2⟩
    have h1 := h.first
    have h2 := h.edges
    cases p with
    | nil => simp at ha
    | cons b p =>
      simp only [List.head?_cons, Option.some.injEq] at h1
      subst h1
      exact chain_lt hg p b hs h2 a ha
  · unfold refPaths
    rw [(List.perm_insertionSort _ _).nodup_iff]
    exact (List.nodup_dedup _).filter _
  · unfold refPaths
    haveI : Std.Total (fun p q : List NodeId => edgeSum g p ≤ edgeSum g q) := ⟨fun a b => le_total _ _⟩
    haveI : IsTrans (List NodeId) (fun p q => edgeSum g p ≤ edgeSum g q) := ⟨fun a b c => le_trans⟩
    exact List.pairwise_insertionSort _ _

end UX
