import Verif.Model.CppRandom
import Verif.Spec.CppRandom
import Verif.Props.CppRoutes
import Mathlib.Data.List.Nodup
import Mathlib.Data.List.ProdSigma

/-! # Proofs about the random routes of the C++ engine -/

namespace UX.Cpp
open Spec CWorld

/-! ## The last link between two nodes -/

theorem lastLink_aux (W : CWorld) (f : ℕ → ℚ) (a b : ℕ) (L : List ℕ) (r : Option ℕ) (q : Option ℚ)
    (h : (r = none ∧ q = some 0) ∨ ∃ l, r = some l ∧ q = some (f l)) :
    let r' := L.foldl (fun r l => if (W.link l).src = a ∧ (W.link l).dst = b then some l else r) r
    let q' := L.foldl (fun r l => if (W.link l).src = a ∧ (W.link l).dst = b then some (f l) else r) q
    (r' = none ∧ q' = some 0) ∨ ∃ l, r' = some l ∧ q' = some (f l) := by
  induction L generalizing r q with
  | nil => exact h
  | cons x L ih =>
    simp only [List.foldl_cons]
    refine ih _ _ ?_
    split
    · exact .inr ⟨x, rfl, rfl⟩
    · exact h

theorem pairLink_aux (W : CWorld) (a b : ℕ) (L : List ℕ) (r : Option ℕ) (l : ℕ)
    (h : L.foldl (fun r l => if (W.link l).src = a ∧ (W.link l).dst = b then some l else r) r = some l) :
    r = some l ∨ (l ∈ L ∧ (W.link l).src = a ∧ (W.link l).dst = b) := by
  induction L generalizing r with
  | nil => exact .inl h
  | cons x L ih =>
    rcases ih _ h with h1 | ⟨h1, h2⟩
    · dsimp only at h1
      split at h1
      · rename_i hc
        cases h1
        exact .inr ⟨List.mem_cons_self, hc⟩
      · exact .inl h1
    · exact .inr ⟨List.mem_cons_of_mem _ h1, h2⟩

theorem pairLink_ne (W : CWorld) (a b : ℕ) (L : List ℕ) (r : Option ℕ)
    (h : r ≠ none ∨ ∃ l ∈ L, (W.link l).src = a ∧ (W.link l).dst = b) :
    L.foldl (fun r l => if (W.link l).src = a ∧ (W.link l).dst = b then some l else r) r ≠ none := by
  induction L generalizing r with
  | nil =>
    rcases h with h | ⟨l, h, -⟩
    · exact h
    · cases h
  | cons x L ih =>
    refine ih _ ?_
    rcases h with h | ⟨l, hl, h⟩
    · left
      dsimp only
      split
      · simp
      · exact h
    · rcases List.mem_cons.1 hl with rfl | hl
      · left; dsimp only; rw [if_pos h]; simp
      · exact .inr ⟨l, hl, h⟩

/-- The link of a pair of nodes. -/
theorem pairLink_some {W : CWorld} {a b l : ℕ} (h : W.pairLink a b = some l) :
    l < W.g.nLinks ∧ (W.link l).src = a ∧ (W.link l).dst = b := by
  rcases pairLink_aux W a b _ _ l h with h | ⟨h1, h2⟩
  · cases h
  · exact ⟨List.mem_range.1 h1, h2⟩

theorem pairLink_link {W : CWorld} {l : ℕ} (hl : l < W.g.nLinks) :
    ∃ l', W.pairLink (W.link l).src (W.link l).dst = some l' := by
  have := pairLink_ne W (W.link l).src (W.link l).dst (List.range W.g.nLinks) none
    (.inr ⟨l, List.mem_range.2 hl, rfl, rfl⟩)
  exact Option.ne_none_iff_exists'.1 this

theorem randAdj_cases (W : CWorld) (rnd : ℕ → ℕ → ℚ) (it a b : ℕ) :
    (W.pairLink a b = none ∧ W.randAdj rnd it a b = some 0) ∨
      ∃ l, W.pairLink a b = some l ∧ W.randAdj rnd it a b = some (W.randWeight rnd it l) :=
  lastLink_aux W (W.randWeight rnd it) a b _ none (some 0) (.inl ⟨rfl, rfl⟩)

/-! ## Following the next hops -/

theorem hopPath_leads {W : CWorld} {next : ℕ → Option ℕ} {dst : ℕ} : ∀ (k cur : ℕ) (acc r : List ℕ),
    W.hopPath next dst k cur acc = .path r → ∃ p, r = acc ++ p ∧ Leads W cur dst p := by
  intro k
  induction k with
  | zero => intro cur acc r h; cases h
  | succ k ih =>
    intro cur acc r h
    unfold hopPath at h
    split at h
    · rename_i hc
      cases h
      exact ⟨[], by simp, hc⟩
    · split at h
      · cases h
      · split at h
        · cases h
        · split at h
          · cases h
          · rename_i l hl
            obtain ⟨p, hp, hL⟩ := ih _ _ _ h
            obtain ⟨a1, a2, a3⟩ := pairLink_some hl
            exact ⟨l :: p, by simp [hp], a1, a2, by rw [a3]; exact hL⟩

/-- The path found does not depend on the bound. -/
theorem hopPath_unique {W : CWorld} {next : ℕ → Option ℕ} {dst : ℕ} : ∀ (k k' cur : ℕ) (acc acc' p p' : List ℕ),
    W.hopPath next dst k cur acc = .path (acc ++ p) → W.hopPath next dst k' cur acc' = .path (acc' ++ p') →
    p = p' := by
  intro k
  induction k with
  | zero => intro _ _ _ _ _ _ h; cases h
  | succ k ih =>
    intro k' cur acc acc' p p' h h'
    cases k' with
    | zero => cases h'
    | succ k' =>
      unfold hopPath at h h'
      by_cases hc : cur = dst
      · rw [if_pos hc] at h h'
        have e : acc = acc ++ p := by injection h
        have e' : acc' = acc' ++ p' := by injection h'
        rw [List.self_eq_append_right] at e e'
        rw [e, e']
      · rw [if_neg hc] at h h'
        cases hn : next cur with
        | none => rw [hn] at h; cases h
        | some nxt =>
          simp only [hn] at h h'
          by_cases hx : nxt = cur
          · rw [if_pos hx] at h; cases h
          · rw [if_neg hx] at h h'
            cases hl : W.pairLink cur nxt with
            | none => rw [hl] at h; cases h
            | some l =>
              simp only [hl] at h h'
              obtain ⟨q, hq, -⟩ := hopPath_leads _ _ _ _ h
              obtain ⟨q', hq', -⟩ := hopPath_leads _ _ _ _ h'
              have := ih k' nxt (acc ++ [l]) (acc' ++ [l]) q q' (hq ▸ h) (hq' ▸ h')
              subst this
              rw [List.append_assoc] at hq hq'
              rw [List.append_cancel_left hq, List.append_cancel_left hq']

/-- From every node on a path the rest of it is what is found from there. -/
theorem hopPath_suffix {W : CWorld} {next : ℕ → Option ℕ} {dst : ℕ} : ∀ (k cur : ℕ) (acc p : List ℕ),
    W.hopPath next dst k cur acc = .path (acc ++ p) → ∀ x ∈ stops W cur p,
    ∃ k' acc' p', W.hopPath next dst k' x acc' = .path (acc' ++ p') ∧ p'.length ≤ p.length ∧
      (x ∈ p.map (fun l => (W.link l).dst) → p'.length < p.length) := by
  intro k
  induction k with
  | zero => intro _ _ _ h; cases h
  | succ k ih =>
    intro cur acc p h x hx
    have h0 := h
    unfold hopPath at h
    split at h
    · have e : acc = acc ++ p := by injection h
      rw [List.self_eq_append_right] at e
      subst e
      simp only [stops, List.map_nil, List.mem_singleton] at hx
      subst hx
      exact ⟨_, _, _, h0, le_refl _, fun hx => by simp at hx⟩
    · split at h
      · cases h
      · split at h
        · cases h
        · split at h
          · cases h
          · rename_i nxt hn hne _ l hl
            obtain ⟨q, hq, -⟩ := hopPath_leads _ _ _ _ h
            have e : p = l :: q := by
              rw [List.append_assoc] at hq
              exact List.append_cancel_left hq
            subst e
            rw [hq] at h
            have hd := (pairLink_some hl).2.2
            by_cases hxm : x ∈ stops W nxt q
            · obtain ⟨k', acc', p', a1, a2, -⟩ := ih _ _ _ h x hxm
              exact ⟨k', acc', p', a1, by simp only [List.length_cons]; omega,
                fun _ => by simp only [List.length_cons]; omega⟩
            · have hxc : x = cur := by
                simp only [stops, List.map_cons, List.mem_cons, hd] at hx hxm
                tauto
              subst hxc
              refine ⟨_, _, _, h0, le_refl _, fun hx => absurd ?_ hxm⟩
              simpa only [stops, List.map_cons, hd] using hx

/-- No node is passed twice. -/
theorem hopPath_nodup {W : CWorld} {next : ℕ → Option ℕ} {dst : ℕ} : ∀ (k cur : ℕ) (acc p : List ℕ),
    W.hopPath next dst k cur acc = .path (acc ++ p) → (stops W cur p).Nodup := by
  intro k
  induction k with
  | zero => intro _ _ _ h; cases h
  | succ k ih =>
    intro cur acc p h
    have h0 := h
    unfold hopPath at h
    split at h
    · have e : acc = acc ++ p := by injection h
      rw [List.self_eq_append_right] at e
      subst e
      simp [stops]
    · split at h
      · cases h
      · split at h
        · cases h
        · split at h
          · cases h
          · rename_i nxt hn hne _ l hl
            obtain ⟨q, hq, -⟩ := hopPath_leads _ _ _ _ h
            have e : p = l :: q := by
              rw [List.append_assoc] at hq
              exact List.append_cancel_left hq
            subst e
            rw [hq] at h
            have hd := (pairLink_some hl).2.2
            have hN := ih _ _ _ h
            refine List.nodup_cons.2 ⟨fun hm => ?_, ?_⟩
            · obtain ⟨k', acc', p', a1, -, a3⟩ := hopPath_suffix _ _ _ _ h0 cur (by simp [stops])
              have := a3 hm
              rw [hopPath_unique _ _ _ _ _ _ _ a1 h0] at this
              omega
            · simpa only [stops, List.map_cons, hd] using hN

/-! ## One iteration -/

/-- What one iteration makes of the entry of a pair. -/
def gain (W : CWorld) (k : ℤ) (next : ℕ → ℕ → Option ℕ) (p : ℕ × ℕ) (o : Option (List (List ℕ))) :
    Option (List (List ℕ)) :=
  if p.1 = p.2 ∨ next p.1 p.2 = none then o
  else if k ≤ ((o.getD []).length : ℤ) then some (o.getD [])
  else match W.hopPath (fun a => next a p.2) p.2 (W.g.nNodes + 1) p.1 [] with
    | .path r => if r = [] ∨ r ∈ o.getD [] then some (o.getD []) else some (o.getD [] ++ [r])
    | _ => some (o.getD [])

/-- A pair that is counted. -/
def counted (next : ℕ → ℕ → Option ℕ) (p : ℕ × ℕ) : Bool := decide (p.1 ≠ p.2 ∧ next p.1 p.2 ≠ none)

def nRoutes (o : Option (List (List ℕ))) : ℕ := (o.getD []).length

theorem upd_twice {α β : Type} [DecidableEq α] (f : α → β) (a : α) (x y : β) :
    upd (upd f a x) a y = upd f a y := by
  funext b; simp only [upd]; split <;> rfl

theorem upd_same {α β : Type} [DecidableEq α] (f : α → β) (a : α) : upd f a (f a) = f := by
  funext b; simp only [upd]; split
  · rename_i h; rw [h]
  · rfl

theorem randPair_some {W : CWorld} {k : ℤ} {next : ℕ → ℕ → Option ℕ} {S S' : RState} {p : ℕ × ℕ}
    (h : W.randPair k next S p = some S') :
    S'.dict = upd S.dict p (gain W k next p (S.dict p)) ∧
      S'.pairs = S.pairs + (if counted next p then 1 else 0) ∧
      S'.routes = S.routes + (if counted next p then nRoutes (S.dict p) else 0) := by
  unfold randPair at h
  unfold gain counted nRoutes
  by_cases h1 : p.1 = p.2
  · rw [if_pos h1] at h
    cases h
    simp [h1, upd_same]
  · rw [if_neg h1] at h
    by_cases h2 : next p.1 p.2 = none
    · rw [if_pos h2] at h
      cases h
      simp [h2, upd_same]
    · rw [if_neg h2] at h
      have hc : ¬ (p.1 = p.2 ∨ next p.1 p.2 = none) := by tauto
      rw [if_neg hc]
      simp only [ne_eq, h1, h2, not_false_eq_true, and_self, decide_true, if_true]
      by_cases h3 : k ≤ (((S.dict p).getD []).length : ℤ)
      · simp only [h3, if_true] at h
        cases h
        simp [h3]
      · simp only [h3, if_false] at h ⊢
        split at h
        · cases h
        · rename_i hp
          cases h
          simp [hp]
        · rename_i r hp
          simp only [hp]
          by_cases h4 : r = []
          · rw [if_pos h4] at h
            cases h
            simp [h4]
          · rw [if_neg h4] at h
            by_cases h5 : r ∈ (S.dict p).getD []
            · rw [if_pos h5] at h
              cases h
              simp [h5]
            · rw [if_neg h5] at h
              cases h
              simp only [h4, h5, or_self, if_false]
              exact ⟨upd_twice _ _ _ _, trivial, trivial⟩

theorem randPair_ok {W : CWorld} {k : ℤ} {next : ℕ → ℕ → Option ℕ} {p : ℕ × ℕ}
    (hd : counted next p = true → W.hopPath (fun a => next a p.2) p.2 (W.g.nNodes + 1) p.1 [] ≠ .diverge)
    (S : RState) : ∃ S', W.randPair k next S p = some S' := by
  unfold randPair
  by_cases h1 : p.1 = p.2
  · exact ⟨S, if_pos h1⟩
  · by_cases h2 : next p.1 p.2 = none
    · exact ⟨S, by rw [if_neg h1, if_pos h2]⟩
    · rw [if_neg h1, if_neg h2]
      have hd := hd (by simp [counted, h1, h2])
      dsimp only
      split
      · exact ⟨_, rfl⟩
      · split
        · rename_i h; exact absurd h hd
        · exact ⟨_, rfl⟩
        · split
          · exact ⟨_, rfl⟩
          · split <;> exact ⟨_, rfl⟩

theorem randFold_some {W : CWorld} {k : ℤ} {next : ℕ → ℕ → Option ℕ} : ∀ (L : List (ℕ × ℕ)) (S S' : RState),
    L.Nodup → L.foldlM (W.randPair k next) S = some S' →
    (∀ p, S'.dict p = if p ∈ L then gain W k next p (S.dict p) else S.dict p) ∧
      S'.pairs = S.pairs + (L.filter (counted next)).length ∧
      S'.routes = S.routes + ((L.filter (counted next)).map (fun p => nRoutes (S.dict p))).sum := by
  intro L
  induction L with
  | nil =>
    intro S S' _ h
    cases h
    simp
  | cons x L ih =>
    intro S S' hN h
    rw [List.foldlM_cons] at h
    cases hx : W.randPair k next S x with
    | none => rw [hx] at h; cases h
    | some S1 =>
      rw [hx] at h
      obtain ⟨a1, a2, a3⟩ := randPair_some hx
      rw [List.nodup_cons] at hN
      obtain ⟨b1, b2, b3⟩ := ih S1 S' hN.2 h
      have hd : ∀ p, p ≠ x → S1.dict p = S.dict p := by
        intro p hp; rw [a1]; simp [upd, hp]
      have hm : ((L.filter (counted next)).map (fun p => nRoutes (S1.dict p))).sum =
          ((L.filter (counted next)).map (fun p => nRoutes (S.dict p))).sum := by
        congr 1
        refine List.map_congr_left fun p hp => ?_
        rw [hd p]
        rintro rfl
        exact hN.1 (List.mem_filter.1 hp).1
      refine ⟨fun p => ?_, ?_, ?_⟩
      · rw [b1]
        by_cases hp : p = x
        · subst hp
          rw [if_neg hN.1, if_pos List.mem_cons_self, a1]
          simp [upd]
        · rw [hd p hp]
          simp [List.mem_cons, hp]
      · rw [b2, a2, List.filter_cons]
        split <;> simp_all <;> omega
      · rw [b3, a3, hm, List.filter_cons]
        split <;> simp_all <;> omega

theorem randFold_ok {W : CWorld} {k : ℤ} {next : ℕ → ℕ → Option ℕ} : ∀ (L : List (ℕ × ℕ)) (S : RState),
    (∀ p ∈ L, counted next p = true →
      W.hopPath (fun a => next a p.2) p.2 (W.g.nNodes + 1) p.1 [] ≠ .diverge) →
    ∃ S', L.foldlM (W.randPair k next) S = some S' := by
  intro L
  induction L with
  | nil => intro S _; exact ⟨S, rfl⟩
  | cons x L ih =>
    intro S h
    obtain ⟨S1, h1⟩ := randPair_ok (k := k) (h x List.mem_cons_self) S
    rw [List.foldlM_cons, h1]
    exact ih S1 fun p hp => h p (List.mem_cons_of_mem _ hp)

theorem nodePairs_nodup (W : CWorld) : W.nodePairs.Nodup :=
  List.Nodup.product (List.nodup_range) (List.nodup_range)

theorem mem_nodePairs {W : CWorld} {p : ℕ × ℕ} : p ∈ W.nodePairs ↔ p.1 < W.g.nNodes ∧ p.2 < W.g.nNodes := by
  obtain ⟨a, b⟩ := p
  simp [nodePairs, List.mem_flatMap]

/-! ## The loop -/

/-- What holds before the first iteration and is kept by each holds at the end. -/
theorem randLoop_inv {W : CWorld} {k : ℤ} {rnd : ℕ → ℕ → ℚ} {P : ℕ → RDict → Prop}
    (hP : ∀ it D S, P it D → W.randIter k rnd it D = some S → P (it + 1) S.dict) :
    ∀ (fuel it c : ℕ) (old : ℚ) (D D' : RDict), P it D → W.randLoop k rnd fuel it c old D = some D' →
      ∃ it', it < it' ∧ P it' D' := by
  intro fuel
  induction fuel with
  | zero => intro _ _ _ _ _ _ h; cases h
  | succ fuel ih =>
    intro it c old D D' h0 h
    rw [randLoop] at h
    cases hi : W.randIter k rnd it D with
    | none => rw [hi] at h; cases h
    | some S =>
      simp only [hi] at h
      have h1 := hP it D S h0 hi
      generalize (if S.average W.g.fl = old then c + 1 else 0) = c' at h
      generalize (if S.average W.g.fl = old then old else S.average W.g.fl) = o' at h
      split at h
      · cases h
        exact ⟨it + 1, by omega, h1⟩
      · obtain ⟨it', a, b⟩ := ih _ _ _ _ _ h1 h
        exact ⟨it', by omega, b⟩

/-- The entries are sets of routes. -/
structure EntryOK (W : CWorld) (k : ℤ) (p : ℕ × ℕ) (rs : List (List ℕ)) : Prop where
  ne : p.1 ≠ p.2
  lt1 : p.1 < W.g.nNodes
  lt2 : p.2 < W.g.nNodes
  len : rs.length ≤ k.toNat
  once : rs.Nodup
  way : ∀ r ∈ rs, r ≠ [] ∧ Leads W p.1 p.2 r ∧ (stops W p.1 r).Nodup

theorem gain_ok {W : CWorld} {k : ℤ} {next : ℕ → ℕ → Option ℕ} {p : ℕ × ℕ} {o : Option (List (List ℕ))}
    (hp : p ∈ W.nodePairs) (h : ∀ rs, o = some rs → EntryOK W k p rs) {rs : List (List ℕ)}
    (hg : gain W k next p o = some rs) : EntryOK W k p rs := by
  unfold gain at hg
  split at hg
  · exact h rs hg
  · rename_i hc
    have hne : p.1 ≠ p.2 := fun e => hc (.inl e)
    obtain ⟨l1, l2⟩ := mem_nodePairs.1 hp
    have h0 : EntryOK W k p (o.getD []) := by
      cases o with
      | some rs => exact h _ rfl
      | none => exact ⟨hne, l1, l2, Nat.zero_le _, List.nodup_nil, fun r hr => by simp at hr⟩
    split at hg
    · cases hg; exact h0
    · rename_i hk
      split at hg
      · rename_i r hr
        split at hg
        · cases hg; exact h0
        · rename_i hr2
          cases hg
          push Not at hr2
          obtain ⟨q, hq, hl⟩ := hopPath_leads _ _ _ _ hr
          rw [List.nil_append] at hq
          subst hq
          refine ⟨hne, l1, l2, ?_, ?_, ?_⟩
          · rw [List.length_append, List.length_singleton]; omega
          · rw [List.nodup_append]
            refine ⟨h0.once, List.nodup_singleton _, fun a ha b hb => ?_⟩
            rw [List.mem_singleton] at hb
            subst hb
            rintro rfl
            exact hr2.2 ha
          · intro x hx
            rcases List.mem_append.1 hx with hx | hx
            · exact h0.way x hx
            · rw [List.mem_singleton] at hx
              subst hx
              exact ⟨hr2.1, hl, hopPath_nodup _ _ [] _ hr⟩
      · cases hg; exact h0

theorem randIter_ok {W : CWorld} {k : ℤ} {rnd : ℕ → ℕ → ℚ} {it : ℕ} {D : RDict} {S : RState}
    (h : ∀ p rs, D p = some rs → EntryOK W k p rs) (hi : W.randIter k rnd it D = some S) :
    ∀ p rs, S.dict p = some rs → EntryOK W k p rs := by
  intro p rs hp
  rw [(randFold_some _ _ _ (nodePairs_nodup W) hi).1 p] at hp
  split at hp
  · rename_i hm
    exact gain_ok hm (fun rs => h p rs) hp
  · exact h p rs hp

theorem randomRoutes_ok {W : CWorld} {k : ℤ} {rnd : ℕ → ℕ → ℚ} {fuel : ℕ} {D : RDict}
    (h : W.randomRoutes k rnd fuel = some D) : ∀ p rs, D p = some rs → EntryOK W k p rs := by
  obtain ⟨-, -, h⟩ := randLoop_inv (P := fun _ D => ∀ p rs, D p = some rs → EntryOK W k p rs)
    (fun it D S h hi => randIter_ok h hi) _ _ _ _ _ _ (fun p rs h => by cases h) h
  exact h

end UX.Cpp
