import Verif.Model.Grid
import Verif.Spec.Grid
import Verif.Proofs.Scenario
import Verif.Proofs.Safe
import Std.Data.String.ToNat
import Mathlib.Algebra.BigOperators.Group.Finset.Basic
import Mathlib.Algebra.Order.BigOperators.Group.Finset

/-!
# Grid networks
-/

namespace UX
open World

/-! ## Names -/

theorem split_unique {α : Type} {c : α} : ∀ {a b x y : List α}, c ∉ a → c ∉ b → a ++ c :: x = b ++ c :: y → a = b ∧ x = y
  | [], [], _, _, _, _, h => by simpa using h
  | [], d :: b, _, _, _, hb, h => by
    simp only [List.nil_append, List.cons_append, List.cons.injEq] at h
    exact absurd (by rw [h.1]; simp) hb
  | d :: a, [], _, _, ha, _, h => by
    simp only [List.nil_append, List.cons_append, List.cons.injEq] at h
    exact absurd (by rw [h.1]; simp) ha
  | d :: a, e :: b, x, y, ha, hb, h => by
    simp only [List.cons_append, List.cons.injEq] at h
    obtain ⟨h1, h2⟩ := split_unique (fun hc => ha (List.mem_cons_of_mem _ hc)) (fun hc => hb (List.mem_cons_of_mem _ hc)) h.2
    exact ⟨by rw [h.1, h1], h2⟩

theorem sep_not_mem {c : Char} (hc : c.isDigit = false) (n : ℕ) : c ∉ n.repr.toList := by
  intro h
  rw [Nat.toList_repr] at h
  have := Nat.isDigit_of_mem_toDigits (by omega) (by omega) h
  rw [hc] at this
  cases this

theorem repr_toList_inj {a b : ℕ} (h : a.repr.toList = b.repr.toList) : a = b :=
  Nat.repr_injective (String.toList_injective h)

theorem gridNode_inj {i j k m : ℕ} (h : gridNode i j = gridNode k m) : i = k ∧ j = m := by
  have h1 := congrArg String.toList h
  simp only [gridNode, String.toList_append, List.append_assoc] at h1
  have h2 := List.append_cancel_left h1
  obtain ⟨h3, h4⟩ := split_unique (c := ',') (sep_not_mem (by decide) i) (sep_not_mem (by decide) k) h2
  have h5 : (toString j).toList = (toString m).toList := List.append_cancel_right (List.cons.inj h4).2
  exact ⟨repr_toList_inj h3, repr_toList_inj h5⟩

theorem gridLink_inj {i j k m i' j' k' m' : ℕ} (h : gridLink i j k m = gridLink i' j' k' m') :
    i = i' ∧ j = j' ∧ k = k' ∧ m = m' := by
  have h1 := congrArg String.toList h
  simp only [gridLink, String.toList_append, List.append_assoc] at h1
  have h2 := List.append_cancel_left h1
  obtain ⟨a1, h4⟩ := split_unique (c := ',') (sep_not_mem (by decide) i) (sep_not_mem (by decide) i') h2
  obtain ⟨a2, h5⟩ := split_unique (c := ',') (sep_not_mem (by decide) j) (sep_not_mem (by decide) j') (List.cons.inj h4).2
  obtain ⟨a3, h6⟩ := split_unique (c := ',') (sep_not_mem (by decide) k) (sep_not_mem (by decide) k') (List.cons.inj h5).2
  have a4 : (toString m).toList = (toString m').toList := List.append_cancel_right (List.cons.inj h6).2
  exact ⟨repr_toList_inj a1, repr_toList_inj a2, repr_toList_inj a3, repr_toList_inj a4⟩

/-! ## Flat lists -/

theorem foldlM_flat {α β γ : Type} {f : γ → α → M γ} {g : β → List α} : ∀ (xs : List β) (W : γ),
    xs.foldlM (fun W b => (g b).foldlM f W) W = (xs.flatMap g).foldlM f W
  | [], W => rfl
  | b :: xs, W => by
    rw [List.foldlM_cons, List.flatMap_cons, List.foldlM_append]
    exact congrArg _ (funext fun W' => foldlM_flat xs W')

/-- The points in the order of the code. -/
def points (imax jmax : ℕ) : List (ℕ × ℕ) := (List.range imax).flatMap fun i => (List.range jmax).map fun j => (i, j)

theorem mem_points {imax jmax : ℕ} {p : ℕ × ℕ} : p ∈ points imax jmax ↔ Inside imax jmax p := by
  obtain ⟨i, j⟩ := p
  simp [points, Inside]

theorem length_points (imax jmax : ℕ) : (points imax jmax).length = imax * jmax := by
  simp [points, List.length_flatMap]

theorem points_get {imax jmax i j : ℕ} (hi : i < imax) (hj : j < jmax) :
    (points imax jmax)[i * jmax + j]? = some (i, j) := by
  induction imax with
  | zero => omega
  | succ m ih =>
    have hs : points (m + 1) jmax = points m jmax ++ (List.range jmax).map (fun j => (m, j)) := by
      simp [points, List.range_succ]
    rw [hs]
    by_cases him : i < m
    · rw [List.getElem?_append_left, ih him]
      rw [length_points]
      calc i * jmax + j < i * jmax + jmax := by omega
        _ = (i + 1) * jmax := by ring
        _ ≤ m * jmax := Nat.mul_le_mul_right _ him
    · have : i = m := by omega
      subst this
      rw [List.getElem?_append_right (by rw [length_points]; omega), length_points]
      simp [hj]

/-- The pairs of neighbours in the order of the code. -/
def pairs (imax jmax : ℕ) : List ((ℕ × ℕ) × (ℕ × ℕ)) :=
  (points imax jmax).flatMap fun p => (gridNext imax jmax p.1 p.2).map fun q => (p, q)

theorem mem_gridNext {imax jmax : ℕ} {p q : ℕ × ℕ} (hp : Inside imax jmax p) :
    q ∈ gridNext imax jmax p.1 p.2 ↔ Inside imax jmax q ∧ Beside p q := by
  obtain ⟨i, j⟩ := p
  obtain ⟨k, m⟩ := q
  obtain ⟨h1, h2⟩ := hp
  unfold gridNext Inside Beside
  simp only [List.mem_append] at *
  split_ifs <;> simp <;> omega

theorem nodup_gridNext (imax jmax i j : ℕ) : (gridNext imax jmax i j).Nodup := by
  unfold gridNext
  split_ifs <;> simp <;> omega

theorem nodup_points (imax jmax : ℕ) : (points imax jmax).Nodup := by
  unfold points
  rw [List.nodup_flatMap]
  refine ⟨fun i _ => List.Nodup.map (fun a b h => (Prod.mk.inj h).2) List.nodup_range, ?_⟩
  refine List.Pairwise.imp_of_mem ?_ List.nodup_range
  intro a b _ _ hab x h1 h2
  simp only [List.mem_map] at h1 h2
  obtain ⟨_, -, rfl⟩ := h1
  obtain ⟨_, -, h2⟩ := h2
  exact hab (Prod.mk.inj h2).1.symm

theorem mem_pairs {imax jmax : ℕ} {p q : ℕ × ℕ} :
    (p, q) ∈ pairs imax jmax ↔ Inside imax jmax p ∧ Inside imax jmax q ∧ Beside p q := by
  unfold pairs
  simp only [List.mem_flatMap, List.mem_map, Prod.mk.injEq]
  constructor
  · rintro ⟨p', h1, q', h2, rfl, rfl⟩
    rw [mem_points] at h1
    exact ⟨h1, (mem_gridNext h1).1 h2⟩
  · rintro ⟨h1, h2⟩
    exact ⟨p, mem_points.2 h1, q, (mem_gridNext h1).2 h2, rfl, rfl⟩

theorem nodup_pairs (imax jmax : ℕ) : (pairs imax jmax).Nodup := by
  unfold pairs
  rw [List.nodup_flatMap]
  refine ⟨fun i _ => List.Nodup.map (fun a b h => (Prod.mk.inj h).2) (nodup_gridNext _ _ _ _), ?_⟩
  refine List.Pairwise.imp_of_mem ?_ (nodup_points _ _)
  intro a b _ _ hab x h1 h2
  simp only [List.mem_map] at h1 h2
  obtain ⟨_, -, rfl⟩ := h1
  obtain ⟨_, -, h2⟩ := h2
  exact hab (Prod.mk.inj h2).1.symm

theorem sum_ne (c : ℕ) : ∀ n : ℕ, ((List.range n).map fun i => if i ≠ c then 1 else 0).sum = n - if c < n then 1 else 0
  | 0 => by simp
  | n + 1 => by
    rw [List.range_succ, List.map_append, List.sum_append, sum_ne c n]
    by_cases h1 : n = c
    · subst h1; simp
    · have h2 : (c < n + 1) ↔ c < n := by omega
      simp only [h2, List.map_cons, List.map_nil, List.sum_cons, List.sum_nil, if_pos h1, ne_eq, h1, not_false_eq_true,
        if_true]
      split_ifs <;> omega

theorem sum_ends (n : ℕ) :
    ((List.range n).map fun i => (if i ≠ n - 1 then 1 else 0) + (if i ≠ 0 then 1 else 0)).sum = 2 * (n - 1) := by
  rw [List.sum_map_add, sum_ne, sum_ne]
  split_ifs <;> omega

theorem sum_flat {α β : Type} (f : β → ℕ) (g : α → List β) : ∀ xs : List α,
    ((xs.flatMap g).map f).sum = (xs.map fun x => ((g x).map f).sum).sum
  | [] => rfl
  | x :: xs => by simp [sum_flat f g xs]

theorem sum_mul {α : Type} (c : ℕ) (f : α → ℕ) : ∀ xs : List α, (xs.map fun x => c * f x).sum = c * (xs.map f).sum
  | [] => rfl
  | x :: xs => by simp [sum_mul c f xs, Nat.mul_add]

theorem length_pairs (imax jmax : ℕ) : (pairs imax jmax).length = 2 * ((imax - 1) * jmax + imax * (jmax - 1)) := by
  have h1 : ∀ i j, (gridNext imax jmax i j).length =
      ((if i ≠ imax - 1 then 1 else 0) + (if i ≠ 0 then 1 else 0)) +
      ((if j ≠ jmax - 1 then 1 else 0) + (if j ≠ 0 then 1 else 0)) := by
    intro i j
    unfold gridNext
    split_ifs <;> simp
  have h2 : ∀ i, ((List.range jmax).map fun j => (gridNext imax jmax i j).length).sum =
      jmax * ((if i ≠ imax - 1 then 1 else 0) + (if i ≠ 0 then 1 else 0)) + 2 * (jmax - 1) := by
    intro i
    simp only [h1]
    rw [List.sum_map_add, sum_ends]
    simp
  unfold pairs
  simp only [List.length_flatMap, List.length_map]
  unfold points
  rw [sum_flat]
  simp only [List.map_map, Function.comp_def, h2]
  rw [List.sum_map_add, sum_mul, sum_ends]
  simp
  ring

/-! ## Adding nodes -/

/-- `B` is `A` with nodes added. -/
structure NodesAdded (A B : World) (as : List NodeArgs) : Prop where
  size : B.nNodes = A.nNodes + as.length
  new : ∀ k a, as[k]? = some a → B.N.name (A.nNodes + k) = a.name ∧ B.N.x (A.nNodes + k) = a.x ∧
    B.N.y (A.nNodes + k) = a.y ∧ B.N.flowCap (A.nNodes + k) = a.flowCap ∧ B.N.signal (A.nNodes + k) = a.signal ∧
    B.nodeDict a.name = some (A.nNodes + k)
  old : ∀ n < A.nNodes, B.N.name n = A.N.name n ∧ B.N.x n = A.N.x n ∧ B.N.y n = A.N.y n ∧
    B.N.flowCap n = A.N.flowCap n ∧ B.N.signal n = A.N.signal n
  dict : ∀ s i, A.nodeDict s = some i → B.nodeDict s = some i
  links : B.nLinks = A.nLinks ∧ B.L = A.L ∧ B.linkDict = A.linkDict ∧ B.cfg = A.cfg ∧ B.finalized = A.finalized

theorem nodesAdded {fuel : ℕ} : ∀ {as : List NodeArgs} {A B : World},
    as.foldlM (fun W a => W.addNode fuel a) A = .ok B → NodesAdded A B as
  | [], A, B, h => by
    rw [List.foldlM_nil, pure_ok] at h
    subst h
    exact ⟨by simp, by simp, by simp, fun _ _ h => h, by simp⟩
  | a :: as, A, B, h => by
    rw [List.foldlM_cons, bind_ok] at h
    obtain ⟨A1, h1, h2⟩ := h
    obtain ⟨ph, t, soff, -, hd, rfl⟩ := addNode_ok h1
    have ih := nodesAdded h2
    have hn : (A.addNodeRes a ph t soff).nNodes = A.nNodes + 1 := rfl
    refine ⟨by rw [ih.size, hn, List.length_cons]; omega, ?_, ?_, ?_, ih.links⟩
    · intro k b hk
      cases k with
      | zero =>
        simp only [List.getElem?_cons_zero, Option.some.injEq] at hk
        subst hk
        have h3 := ih.old A.nNodes (by rw [hn]; exact Nat.lt_succ_self _)
        have h4 := ih.dict a.name A.nNodes (by simp [addNodeRes])
        simp only [Nat.add_zero]
        rw [h3.1, h3.2.1, h3.2.2.1, h3.2.2.2.1, h3.2.2.2.2, h4]
        simp [addNodeRes]
      | succ k =>
        rw [List.getElem?_cons_succ] at hk
        have := ih.new k b hk
        rw [hn] at this
        have e : A.nNodes + (k + 1) = A.nNodes + 1 + k := by omega
        rw [e]
        exact this
    · intro n hn'
      have h3 := ih.old n (by rw [hn]; exact Nat.lt_succ_of_lt hn')
      rw [h3.1, h3.2.1, h3.2.2.1, h3.2.2.2.1, h3.2.2.2.2]
      have hne : n ≠ A.nNodes := Nat.ne_of_lt hn'
      simp [addNodeRes, upd_ne _ _ hne]
    · intro s i hs
      refine ih.dict s i ?_
      have hne : s ≠ a.name := by rintro rfl; rw [hd] at hs; cases hs
      simp only [addNodeRes, upd_ne _ _ hne]
      exact hs

theorem nodes_ok {fuel : ℕ} : ∀ {as : List NodeArgs} {A : World}, (∀ a ∈ as, a.signal = [0]) →
    (as.map (·.name)).Nodup → (∀ a ∈ as, A.nodeDict a.name = none) →
    ∃ B, as.foldlM (fun W a => W.addNode fuel a) A = .ok B
  | [], A, _, _, _ => ⟨A, rfl⟩
  | a :: as, A, hs, hn, hd => by
    have h1 : initSignal A.cfg.fl fuel a = .ok (0, 0, (match a.signalOffsetOld with
        | some o => A.cfg.fl (cycleLength A.cfg.fl a.signal - o) | none => a.signalOffset)) := by
      unfold initSignal
      rw [if_pos (hs a (by simp))]
      cases a.signalOffsetOld <;> rfl
    rw [List.map_cons, List.nodup_cons] at hn
    rw [List.foldlM_cons, addNode_of h1 (hd a (by simp)), ok_bind]
    refine nodes_ok (fun b hb => hs b (by simp [hb])) hn.2 fun b hb => ?_
    have hne : b.name ≠ a.name := fun h => hn.1 (List.mem_map.2 ⟨b, hb, h⟩)
    simp only [addNodeRes, upd_ne _ _ hne]
    exact hd b (by simp [hb])

/-! ## Adding links -/

/-- `B` is `A` with links added, given by name, ends and common arguments. -/
structure LinksAdded (A B : World) (len : ℚ) (as : List (String × NodeId × NodeId)) : Prop where
  size : B.nLinks = A.nLinks + as.length
  new : ∀ k a, as[k]? = some a → B.L.name (A.nLinks + k) = a.1 ∧ B.L.startN (A.nLinks + k) = a.2.1 ∧
    B.L.endN (A.nLinks + k) = a.2.2 ∧ B.L.length (A.nLinks + k) = len ∧ B.linkDict a.1 = some (A.nLinks + k)
  old : ∀ l < A.nLinks, B.L.name l = A.L.name l ∧ B.L.startN l = A.L.startN l ∧ B.L.endN l = A.L.endN l ∧
    B.L.length l = A.L.length l
  dict : ∀ s i, A.linkDict s = some i → B.linkDict s = some i
  nodes : B.nNodes = A.nNodes ∧ B.N.name = A.N.name ∧ B.N.x = A.N.x ∧ B.N.y = A.N.y ∧ B.N.flowCap = A.N.flowCap ∧
    B.N.signal = A.N.signal ∧ B.nodeDict = A.nodeDict ∧ B.finalized = A.finalized

theorem linksAdded {kw : LinkArgs} : ∀ {as : List (String × NodeId × NodeId)} {A B : World},
    as.foldlM (fun W a => W.addLink { kw with name := some a.1, startN := .obj a.2.1, endN := .obj a.2.2 }) A = .ok B →
    LinksAdded A B kw.length as
  | [], A, B, h => by
    rw [List.foldlM_nil, pure_ok] at h
    subst h
    exact ⟨by simp, by simp, by simp, fun _ _ h => h, by simp⟩
  | a :: as, A, B, h => by
    rw [List.foldlM_cons, bind_ok] at h
    obtain ⟨A1, h1, h2⟩ := h
    obtain ⟨s, e, nm, k, p, hs, he, -, -, hnm, hd, rfl⟩ := addLink_ok h1
    dsimp only at hnm
    subst hnm
    simp only [getNode] at hs he
    have hs' : s = a.2.1 := by split at hs <;> simp_all
    have he' : e = a.2.2 := by split at he <;> simp_all
    subst hs' he'
    have ih := linksAdded h2
    refine ⟨by rw [ih.size]; simp only [addLinkRes, List.length_cons]; omega, ?_, ?_, ?_, ?_⟩
    · intro k b hk
      cases k with
      | zero =>
        simp only [List.getElem?_cons_zero, Option.some.injEq] at hk
        subst hk
        have h3 := ih.old A.nLinks (Nat.lt_succ_self _)
        have h4 := ih.dict a.1 A.nLinks (by simp [addLinkRes])
        simp only [Nat.add_zero]
        rw [h3.1, h3.2.1, h3.2.2.1, h3.2.2.2, h4]
        simp [addLinkRes]
      | succ k =>
        rw [List.getElem?_cons_succ] at hk
        have := ih.new k b hk
        have e : A.nLinks + (k + 1) = A.nLinks + 1 + k := by omega
        rw [e]
        exact this
    · intro n hn'
      have h3 := ih.old n (Nat.lt_succ_of_lt hn')
      rw [h3.1, h3.2.1, h3.2.2.1, h3.2.2.2]
      have hne : n ≠ A.nLinks := Nat.ne_of_lt hn'
      simp [addLinkRes, upd_ne _ _ hne]
    · intro s i hs
      refine ih.dict s i ?_
      have hne : s ≠ a.1 := by rintro rfl; rw [hd] at hs; cases hs
      simp only [addLinkRes, upd_ne _ _ hne]
      exact hs
    · exact ih.nodes

theorem links_ok {kw : LinkArgs} {k : ℕ} (hk : kw.lanes = k) {r} : ∀ {as : List (String × NodeId × NodeId)} {A : World},
    linkParams A.cfg.fl A.cfg.reactionTime k kw.u
      (match kw.jamPerLane with | some j => A.fl (j * kw.lanes) | none => kw.jamDensity) = .ok r →
    (∀ a ∈ as, a.2.1 < A.nNodes ∧ a.2.2 < A.nNodes) → (as.map (·.1)).Nodup → (∀ a ∈ as, A.linkDict a.1 = none) →
    ∃ B, as.foldlM (fun W a => W.addLink { kw with name := some a.1, startN := .obj a.2.1, endN := .obj a.2.2 }) A = .ok B
  | [], A, _, _, _, _ => ⟨A, rfl⟩
  | a :: as, A, hp, hs, hn, hd => by
    rw [List.map_cons, List.nodup_cons] at hn
    have h0 := hs a (by simp)
    rw [List.foldlM_cons, addLink_of (a := { kw with name := some a.1, startN := .obj a.2.1, endN := .obj a.2.2 }) (s := a.2.1) (e := a.2.2) (nm := a.1) (k := k)
      (p := ⟨r.1, r.2.1, r.2.2.1, r.2.2.2.1, r.2.2.2.2.1, r.2.2.2.2.2.1, r.2.2.2.2.2.2⟩) (by simp only [getNode]; rw [if_pos h0.1])
      (by simp only [getNode]; rw [if_pos h0.2]) hk (by cases hj : kw.jamPerLane <;> simp only [hj] at hp ⊢ <;> exact hp) rfl (hd a (by simp)), ok_bind]
    refine links_ok hk (r := r) hp (fun b hb => hs b (by simp [hb])) hn.2 fun b hb => ?_
    have hne : b.1 ≠ a.1 := fun h => hn.1 (List.mem_map.2 ⟨b, hb, h⟩)
    simp only [addLinkRes, upd_ne _ _ hne]
    exact hd b (by simp [hb])

end UX
