import Verif.Spec.Osm
import Mathlib.Data.List.Nodup
import Mathlib.Tactic.SplitIfs
import Mathlib.Tactic.Push
import Mathlib.Tactic.Set

/-!
# Lemmas on the import from OpenStreetMap (C115, C116)
-/

namespace UX
namespace Osm
open Spec

variable {α β : Type} [DecidableEq α]

theorem dSet_keys (d : List (α × β)) (k : α) (v : β) (k' : α) :
    k' ∈ (dSet d k v).map Prod.fst ↔ k' = k ∨ k' ∈ d.map Prod.fst := by
  induction d with
  | nil => simp [dSet]
  | cons p r ih =>
    unfold dSet
    split
    · rename_i h; simp [h]
    · simp only [List.map_cons, List.mem_cons, ih]; tauto

theorem dSet_nodup (d : List (α × β)) (k : α) (v : β) (h : (d.map Prod.fst).Nodup) :
    ((dSet d k v).map Prod.fst).Nodup := by
  induction d with
  | nil => simp [dSet]
  | cons p r ih =>
    simp only [List.map_cons, List.nodup_cons] at h
    unfold dSet
    split
    · rename_i e; simp only [List.map_cons, List.nodup_cons]; exact ⟨e ▸ h.1, h.2⟩
    · rename_i e
      simp only [List.map_cons, List.nodup_cons]
      refine ⟨fun hm => ?_, ih h.2⟩
      rcases (dSet_keys r k v p.1).1 hm with h1 | h1
      · exact e h1
      · exact h.1 h1

theorem dSet_mem {d : List (α × β)} {k : α} {v : β} {p : α × β} (h : p ∈ dSet d k v) : p = (k, v) ∨ p ∈ d := by
  induction d with
  | nil => simpa [dSet] using h
  | cons q r ih =>
    unfold dSet at h
    split at h
    · rcases List.mem_cons.1 h with h | h
      · exact .inl h
      · exact .inr (List.mem_cons_of_mem _ h)
    · rcases List.mem_cons.1 h with h | h
      · exact .inr (h ▸ List.mem_cons_self)
      · rcases ih h with h | h
        · exact .inl h
        · exact .inr (List.mem_cons_of_mem _ h)

/-- Entries under other keys stay. -/
theorem dSet_keep {d : List (α × β)} {k : α} {v : β} {p : α × β} (h : p ∈ d) (hk : p.1 ≠ k) : p ∈ dSet d k v := by
  induction d with
  | nil => simp at h
  | cons q r ih =>
    unfold dSet
    split
    · rename_i e
      rcases List.mem_cons.1 h with h | h
      · exact absurd (h ▸ e) hk
      · exact List.mem_cons_of_mem _ h
    · rcases List.mem_cons.1 h with h | h
      · exact h ▸ List.mem_cons_self
      · exact List.mem_cons_of_mem _ (ih h)

theorem dGet_mem {d : List (α × β)} {k : α} {v : β} (h : dGet d k = some v) : (k, v) ∈ d := by
  unfold dGet at h
  obtain ⟨p, hp, rfl⟩ := Option.map_eq_some_iff.1 h
  have h1 := List.mem_of_find?_eq_some hp
  have h2 := List.find?_some hp
  simp only [decide_eq_true_eq] at h2
  rw [← h2]; exact h1

theorem dGet_none {d : List (α × β)} {k : α} : dGet d k = none ↔ k ∉ d.map Prod.fst := by
  unfold dGet
  rw [Option.map_eq_none_iff, List.find?_eq_none]
  simp only [decide_eq_true_eq, List.mem_map, not_exists, not_and]

theorem dGet_some {d : List (α × β)} {k : α} (h : k ∈ d.map Prod.fst) : ∃ v, dGet d k = some v := by
  cases e : dGet d k with
  | none => exact absurd h (dGet_none.1 e)
  | some v => exact ⟨v, rfl⟩

/-- A loop that may raise, with a property of what is done. -/
theorem foldlM_prefix {σ τ : Type} (f : σ → τ → M σ) (L : List τ) (Inv : List τ → σ → Prop) (s0 : σ)
    (h0 : Inv [] s0)
    (hs : ∀ done l s, l ∈ L → Inv done s → ∃ s', f s l = .ok s' ∧ Inv (done ++ [l]) s') :
    ∃ s, L.foldlM f s0 = .ok s ∧ Inv L s := by
  suffices H : ∀ (rest done : List τ) (s : σ), (∀ l ∈ rest, l ∈ L) → Inv done s →
      ∃ s', rest.foldlM f s = .ok s' ∧ Inv (done ++ rest) s' by
    simpa using H L [] s0 (fun _ h => h) h0
  intro rest
  induction rest with
  | nil => intro done s _ h; exact ⟨s, rfl, by simpa using h⟩
  | cons l r ih =>
    intro done s hm h
    obtain ⟨s1, e1, h1⟩ := hs done l s (hm l List.mem_cons_self) h
    obtain ⟨s2, e2, h2⟩ := ih (done ++ [l]) s1 (fun x hx => hm x (List.mem_cons_of_mem _ hx)) h1
    refine ⟨s2, ?_, by simpa using h2⟩
    rw [List.foldlM_cons, e1]; exact e2

/-! ## Positions -/

theorem positions_aux (nodes : List ONode) : ∀ d : List (ℕ × (ℚ × ℚ)),
    (∀ n, n ∈ (nodes.foldl (fun d n => dSet d n.id (n.x, n.y)) d).map Prod.fst ↔
      n ∈ d.map Prod.fst ∨ n ∈ nodes.map ONode.id) ∧
    (∀ p ∈ nodes.foldl (fun d n => dSet d n.id (n.x, n.y)) d, p ∈ d ∨
      ∃ n ∈ nodes, n.id = p.1 ∧ (n.x, n.y) = p.2) := by
  induction nodes with
  | nil => intro d; exact ⟨fun n => by simp, fun p hp => .inl hp⟩
  | cons m r ih =>
    intro d
    obtain ⟨h1, h2⟩ := ih (dSet d m.id (m.x, m.y))
    refine ⟨fun n => ?_, fun p hp => ?_⟩
    · rw [List.foldl_cons, h1, dSet_keys]; simp only [List.map_cons, List.mem_cons]; tauto
    · rcases h2 p hp with h | ⟨n, hn, h⟩
      · rcases dSet_mem h with rfl | h
        · exact .inr ⟨m, List.mem_cons_self, rfl, rfl⟩
        · exact .inl h
      · exact .inr ⟨n, List.mem_cons_of_mem _ hn, h⟩

theorem posOf_ok {nodes : List ONode} {i : ℕ} (h : i ∈ nodes.map ONode.id) :
    ∃ p, posOf (positions nodes) i = .ok p := by
  obtain ⟨v, hv⟩ := dGet_some (((positions_aux nodes []).1 i).2 (.inr h))
  exact ⟨v, by unfold posOf positions; rw [hv]⟩

theorem posOf_eq {nodes : List ONode} {i : ℕ} {p : ℚ × ℚ} (h : posOf (positions nodes) i = .ok p) :
    ∃ n ∈ nodes, n.id = i ∧ (n.x, n.y) = p := by
  unfold posOf at h
  cases e : dGet (positions nodes) i with
  | none => rw [e] at h; exact absurd h (by simp)
  | some q =>
    rw [e] at h
    obtain rfl : q = p := by simpa using h
    rcases (positions_aux nodes []).2 _ (dGet_mem e) with h | h
    · simp at h
    · exact h

/-! ## The merge map -/

/-- What holds of `delete_node_map` after the links `done`. -/
structure MInv (short : OLink → Prop) (done : List OLink) (D : List (ℕ × ℕ)) : Prop where
  disj : ∀ p ∈ D, ∀ q ∈ D, p.1 ≠ q.2
  link : ∀ p ∈ D, ∃ l ∈ done, (l.src = p.1 ∧ l.dst = p.2) ∨ (l.src = p.2 ∧ l.dst = p.1)
  some : (∃ l ∈ done, short l) → D ≠ []
  none : (∀ l ∈ done, ¬ short l) → D = []

theorem dSet_ne_nil (d : List (α × β)) (k : α) (v : β) : dSet d k v ≠ [] := by
  cases d with
  | nil => simp [dSet]
  | cons p r => unfold dSet; split <;> simp

theorem MInv.set {short : OLink → Prop} {done : List OLink} {D : List (ℕ × ℕ)} (h : MInv short done D) {l : OLink}
    {k v : ℕ} (hl : short l) (hk : k ∉ D.map Prod.snd) (hv : v ∉ D.map Prod.fst) (hne : k ≠ v)
    (hj : (l.src = k ∧ l.dst = v) ∨ (l.src = v ∧ l.dst = k)) : MInv short (done ++ [l]) (dSet D k v) where
  disj p hp q hq := by
    rcases dSet_mem hp with rfl | hp <;> rcases dSet_mem hq with rfl | hq
    · exact hne
    · exact fun e => hk (List.mem_map.2 ⟨q, hq, e.symm⟩)
    · exact fun e => hv (List.mem_map.2 ⟨p, hp, e⟩)
    · exact h.disj p hp q hq
  link p hp := by
    rcases dSet_mem hp with rfl | hp
    · exact ⟨l, by simp, hj⟩
    · obtain ⟨m, hm, e⟩ := h.link p hp
      exact ⟨m, by simp [hm], e⟩
  some _ := dSet_ne_nil _ _ _
  none hn := absurd hl (hn l (by simp))

theorem MInv.skip {short : OLink → Prop} {done : List OLink} {D : List (ℕ × ℕ)} (h : MInv short done D) {l : OLink}
    (hl : short l → D ≠ []) : MInv short (done ++ [l]) D where
  disj := h.disj
  link p hp := by
    obtain ⟨m, hm, e⟩ := h.link p hp
    exact ⟨m, by simp [hm], e⟩
  some he := by
    obtain ⟨m, hm, e⟩ := he
    rcases List.mem_append.1 hm with hm | hm
    · exact h.some ⟨m, hm, e⟩
    · rw [List.mem_singleton] at hm; exact hl (hm ▸ e)
  none hn := h.none (fun m hm => hn m (by simp [hm]))

theorem MInv.pair {short : OLink → Prop} {done : List OLink} {D : List (ℕ × ℕ)} (h : MInv short done D) {l : OLink}
    (hl : short l) (hne : l.src ≠ l.dst) : MInv short (done ++ [l]) (mergePair D l.src l.dst) := by
  unfold mergePair
  dsimp only
  by_cases c : l.dst ∉ D.map Prod.snd ∧ l.src ∉ D.map Prod.fst
  · rw [if_pos c]
    rw [if_neg (fun c2 => ?_)]
    · exact h.set hl c.1 c.2 (Ne.symm hne) (.inr ⟨rfl, rfl⟩)
    · exact c2.2 ((dSet_keys _ _ _ _).2 (.inl rfl))
  · rw [if_neg c]
    split
    · rename_i c2
      exact h.set hl c2.1 c2.2 hne (.inl ⟨rfl, rfl⟩)
    · rename_i c2
      refine h.skip (fun _ e => ?_)
      subst e
      simp at c2

theorem mergeMap_ok (dist : ℚ × ℚ → ℚ × ℚ → ℚ) (thr : ℚ) {N : List ONode × List OLink} (hS : Sound N)
    (hL : Loopless N.2) : ∃ D, mergeMap dist thr (positions N.1) N.2 = .ok D ∧
      MInv (fun l => ∃ p q, posOf (positions N.1) l.src = .ok p ∧ posOf (positions N.1) l.dst = .ok q ∧
        dist p q ≤ thr) N.2 D := by
  refine foldlM_prefix _ _ (MInv _) [] ⟨by simp, by simp, by simp, by simp⟩ (fun done l D hl h => ?_)
  obtain ⟨m, hm, em⟩ := hS.src l hl
  obtain ⟨n, hn, en⟩ := hS.dst l hl
  obtain ⟨p, hp⟩ := posOf_ok (List.mem_map.2 ⟨m, hm, em⟩)
  obtain ⟨q, hq⟩ := posOf_ok (List.mem_map.2 ⟨n, hn, en⟩)
  unfold mergeLink
  rw [hp, hq]
  change ∃ s', (if dist p q ≤ thr then Except.ok (mergePair D l.src l.dst) else .ok D) = Except.ok s' ∧ _
  split
  · rename_i c
    exact ⟨_, rfl, h.pair ⟨p, q, hp, hq, c⟩ (hL l hl)⟩
  · rename_i c
    refine ⟨_, rfl, h.skip (fun ⟨p', q', hp', hq', c'⟩ => ?_)⟩
    rw [hp] at hp'; rw [hq] at hq'
    cases hp'; cases hq'
    exact absurd c' c

/-- The node in place of `n` is `n` itself or at the other end of a link. -/
theorem image_cases (D : List (ℕ × ℕ)) (n : ℕ) :
    (n ∉ D.map Prod.fst ∧ image D n = n) ∨ (n, image D n) ∈ D := by
  unfold image
  cases e : dGet D n with
  | none => exact .inl ⟨dGet_none.1 e, rfl⟩
  | some v => exact .inr (dGet_mem e)

/-! ## The new links -/

/-- What holds of `new_links` after the links `done`. -/
structure RInv (dist : ℚ × ℚ → ℚ × ℚ → ℚ) (P : List (ℕ × (ℚ × ℚ))) (f : ℕ → ℕ) (done : List OLink)
    (A : List ((ℕ × ℕ) × OLink)) : Prop where
  nodup : (A.map Prod.fst).Nodup
  key : ∀ p ∈ A, p.1 = (p.2.src, p.2.dst) ∧ p.2.src ≠ p.2.dst
  old : ∀ p ∈ A, ∃ o ∈ done, p.2.src = f o.src ∧ p.2.dst = f o.dst ∧ p.2.lanes = o.lanes ∧ p.2.speed = o.speed
  len : ∀ p ∈ A, ∃ a b, posOf P p.2.src = .ok a ∧ posOf P p.2.dst = .ok b ∧ p.2.len = dist a b
  all : ∀ o ∈ done, f o.src ≠ f o.dst → (f o.src, f o.dst) ∈ A.map Prod.fst

theorem relink_ok (dist : ℚ × ℚ → ℚ × ℚ → ℚ) (P : List (ℕ × (ℚ × ℚ))) (D : List (ℕ × ℕ)) (links : List OLink)
    (hs : ∀ l ∈ links, ∃ a, posOf P (image D l.src) = .ok a) (hd : ∀ l ∈ links, ∃ a, posOf P (image D l.dst) = .ok a) :
    ∃ A, links.foldlM (relink dist P D) [] = .ok A ∧ RInv dist P (image D) links A := by
  refine foldlM_prefix _ _ (RInv dist P (image D)) [] ⟨by simp, by simp, by simp, by simp, by simp⟩
    (fun done l A hl h => ?_)
  obtain ⟨p, hp⟩ := hs l hl
  obtain ⟨q, hq⟩ := hd l hl
  unfold relink
  dsimp only
  rw [hp, hq]
  change ∃ s', (if image D l.src ≠ image D l.dst then Except.ok (dSet A (image D l.src, image D l.dst)
    { l with src := image D l.src, dst := image D l.dst, len := dist p q }) else .ok A) = Except.ok s' ∧ _
  split
  · rename_i c
    refine ⟨_, rfl, dSet_nodup _ _ _ h.nodup, fun r hr => ?_, fun r hr => ?_, fun r hr => ?_, fun o ho hne => ?_⟩
    · rcases dSet_mem hr with rfl | hr
      · exact ⟨rfl, c⟩
      · exact h.key r hr
    · rcases dSet_mem hr with rfl | hr
      · exact ⟨l, by simp, rfl, rfl, rfl, rfl⟩
      · obtain ⟨o, ho, e⟩ := h.old r hr
        exact ⟨o, by simp [ho], e⟩
    · rcases dSet_mem hr with rfl | hr
      · exact ⟨p, q, hp, hq, rfl⟩
      · exact h.len r hr
    · rw [dSet_keys]
      rcases List.mem_append.1 ho with ho | ho
      · exact .inr (h.all o ho hne)
      · rw [List.mem_singleton] at ho; subst ho; exact .inl rfl
  · rename_i c
    refine ⟨_, rfl, h.nodup, h.key, fun r hr => ?_, h.len, fun o ho hne => ?_⟩
    · obtain ⟨o, ho, e⟩ := h.old r hr
      exact ⟨o, by simp [ho], e⟩
    · rcases List.mem_append.1 ho with ho | ho
      · exact h.all o ho hne
      · rw [List.mem_singleton] at ho; subst ho; exact absurd hne c

/-! ## The reverse links -/

/-- What holds while reverse links are added to `A0`: `done` are the links whose reverse is there. -/
structure BInv (A0 : List ((ℕ × ℕ) × OLink)) (done : List OLink) (A : List ((ℕ × ℕ) × OLink)) : Prop where
  nodup : (A.map Prod.fst).Nodup
  keep : ∀ p ∈ A0, p ∈ A
  new : ∀ p ∈ A, p ∈ A0 ∨ ∃ q ∈ A0, p.1 = (q.2.dst, q.2.src) ∧
    p.2 = { q.2 with name := q.2.name ++ "-reverse", src := q.2.dst, dst := q.2.src }
  rev : ∀ l ∈ done, (l.dst, l.src) ∈ A.map Prod.fst

theorem addReverse_inv {A0 A : List ((ℕ × ℕ) × OLink)} {done : List OLink} {l : OLink} (h : BInv A0 done A)
    (hl : l ∈ A0.map Prod.snd) : BInv A0 (done ++ [l]) (addReverse A l) := by
  unfold addReverse
  split
  · rename_i c
    refine ⟨h.nodup, h.keep, h.new, fun m hm => ?_⟩
    rcases List.mem_append.1 hm with hm | hm
    · exact h.rev m hm
    · rw [List.mem_singleton] at hm; subst hm; exact c
  · rename_i c
    refine ⟨dSet_nodup _ _ _ h.nodup, fun p hp => ?_, fun p hp => ?_, fun m hm => ?_⟩
    · exact dSet_keep (h.keep p hp) (fun e => c (List.mem_map.2 ⟨p, h.keep p hp, e⟩))
    · rcases dSet_mem hp with rfl | hp
      · obtain ⟨q, hq, rfl⟩ := List.mem_map.1 hl
        exact .inr ⟨q, hq, rfl, rfl⟩
      · exact h.new p hp
    · rw [dSet_keys]
      rcases List.mem_append.1 hm with hm | hm
      · exact .inr (h.rev m hm)
      · rw [List.mem_singleton] at hm; subst hm; exact .inl rfl

theorem addReverses_inv {A0 : List ((ℕ × ℕ) × OLink)} (hn : (A0.map Prod.fst).Nodup) :
    BInv A0 (A0.map Prod.snd) (addReverses true A0) := by
  unfold addReverses
  rw [if_pos rfl]
  suffices H : ∀ (rest done : List OLink) (A : List ((ℕ × ℕ) × OLink)), (∀ l ∈ rest, l ∈ A0.map Prod.snd) →
      BInv A0 done A → BInv A0 (done ++ rest) (rest.foldl addReverse A) by
    simpa using H (A0.map Prod.snd) [] A0 (fun _ h => h) ⟨hn, fun _ h => h, fun _ h => .inl h, by simp⟩
  intro rest
  induction rest with
  | nil => intro done A _ h; simpa using h
  | cons l r ih =>
    intro done A hm h
    have := ih (done ++ [l]) (addReverse A l) (fun x hx => hm x (List.mem_cons_of_mem _ hx))
      (addReverse_inv h (hm l List.mem_cons_self))
    simpa using this

/-! ## One round -/

/-- What one round does to a network without loops. -/
structure Round (dist : ℚ × ℚ → ℚ × ℚ → ℚ) (thr : ℚ) (both : Bool) (N N' : List ONode × List OLink) : Prop where
  sound : Sound N'
  loopless : Loopless N'.2
  measured : Measured dist N'
  pairs : (N'.2.map (fun l => (l.src, l.dst))).Nodup
  sub : N'.1.Sublist N.1
  used : ∀ n ∈ N'.1, ∃ l ∈ N'.2, l.src = n.id ∨ l.dst = n.id
  rev : both = true → ∀ l ∈ N'.2, ∃ m ∈ N'.2, m.src = l.dst ∧ m.dst = l.src
  attr : ∀ l ∈ N'.2, ∃ o ∈ N.2, l.lanes = o.lanes ∧ l.speed = o.speed
  moved : ∃ f : ℕ → ℕ, (∀ n ∈ N'.1, f n.id = n.id) ∧ (∀ a b, Edge N.2 a b → f a = f b ∨ Edge N'.2 (f a) (f b)) ∧
    (∀ a, Connected N.2 a (f a)) ∧ ∀ a b, Edge N'.2 a b → Connected N.2 a b
  less : (∃ l ∈ N.2, ∃ m ∈ N.1, ∃ n ∈ N.1, m.id = l.src ∧ n.id = l.dst ∧ dist (m.x, m.y) (n.x, n.y) ≤ thr) →
    N'.1.length < N.1.length
  long : (∀ l ∈ N.2, ∀ m ∈ N.1, ∀ n ∈ N.1, m.id = l.src → n.id = l.dst → thr < dist (m.x, m.y) (n.x, n.y)) →
    ∀ l ∈ N'.2, thr < l.len

theorem node_unique {nodes : List ONode} (h : (nodes.map ONode.id).Nodup) {m n : ONode} (hm : m ∈ nodes)
    (hn : n ∈ nodes) (e : m.id = n.id) : m = n := List.inj_on_of_nodup_map h hm hn e

theorem posOf_node {nodes : List ONode} (h : (nodes.map ONode.id).Nodup) {m : ONode} (hm : m ∈ nodes) :
    posOf (positions nodes) m.id = .ok (m.x, m.y) := by
  obtain ⟨p, hp⟩ := posOf_ok (List.mem_map.2 ⟨m, hm, rfl⟩)
  obtain ⟨n, hn, e, rfl⟩ := posOf_eq hp
  rw [hp, node_unique h hn hm e]

theorem round_ok (dist : ℚ × ℚ → ℚ × ℚ → ℚ) (hsym : ∀ p q, dist p q = dist q p) (thr : ℚ) (both : Bool)
    {N : List ONode × List OLink} (hS : Sound N) (hL : Loopless N.2) :
    ∃ N', mergeRound dist thr both N = .ok N' ∧ Round dist thr both N N' := by
  obtain ⟨D, eD, hD⟩ := mergeMap_ok dist thr hS hL
  -- where a node goes
  have himg : ∀ i, i ∈ N.1.map ONode.id → image D i ∈ N.1.map ONode.id := by
    intro i hi
    rcases image_cases D i with ⟨_, e⟩ | h
    · rw [e]; exact hi
    · obtain ⟨l, hl, e⟩ := hD.link _ h
      rcases e with ⟨_, e⟩ | ⟨e, _⟩
      · obtain ⟨n, hn, en⟩ := hS.dst l hl
        exact List.mem_map.2 ⟨n, hn, by rw [en, e]⟩
      · obtain ⟨n, hn, en⟩ := hS.src l hl
        exact List.mem_map.2 ⟨n, hn, by rw [en, e]⟩
  have hfree : ∀ i, image D i ∉ D.map Prod.fst := by
    intro i hi
    rcases image_cases D i with ⟨h, e⟩ | h
    · rw [e] at hi; exact h hi
    · obtain ⟨p, hp, e⟩ := List.mem_map.1 hi
      exact hD.disj p hp _ h e
  have hsrc : ∀ l ∈ N.2, l.src ∈ N.1.map ONode.id := fun l hl => by
    obtain ⟨n, hn, e⟩ := hS.src l hl; exact List.mem_map.2 ⟨n, hn, e⟩
  have hdst : ∀ l ∈ N.2, l.dst ∈ N.1.map ONode.id := fun l hl => by
    obtain ⟨n, hn, e⟩ := hS.dst l hl; exact List.mem_map.2 ⟨n, hn, e⟩
  obtain ⟨A, eA, hA⟩ := relink_ok dist (positions N.1) D N.2 (fun l hl => posOf_ok (himg _ (hsrc l hl)))
    (fun l hl => posOf_ok (himg _ (hdst l hl)))
  -- the links of the result
  obtain ⟨B, eB, hnod, hkeep, hnew, hrev⟩ : ∃ B, addReverses both A = B ∧ (B.map Prod.fst).Nodup ∧ (∀ p ∈ A, p ∈ B) ∧
      (∀ p ∈ B, p ∈ A ∨ ∃ q ∈ A, p.1 = (q.2.dst, q.2.src) ∧
        p.2 = { q.2 with name := q.2.name ++ "-reverse", src := q.2.dst, dst := q.2.src }) ∧
      (both = true → ∀ p ∈ B, (p.2.dst, p.2.src) ∈ B.map Prod.fst) := by
    cases both with
    | false => exact ⟨A, rfl, hA.nodup, fun _ h => h, fun _ h => .inl h, by simp⟩
    | true =>
      have h := addReverses_inv hA.nodup
      refine ⟨_, rfl, h.nodup, h.keep, h.new, fun _ p hp => ?_⟩
      rcases h.new p hp with h1 | ⟨q, hq, e1, e2⟩
      · exact h.rev _ (List.mem_map.2 ⟨p, h1, rfl⟩)
      · rw [e2]
        exact List.mem_map.2 ⟨q, h.keep q hq, (hA.key q hq).1⟩
  have hkey : ∀ p ∈ B, p.1 = (p.2.src, p.2.dst) ∧ p.2.src ≠ p.2.dst := by
    intro p hp
    rcases hnew p hp with h | ⟨q, hq, e1, e2⟩
    · exact hA.key p h
    · rw [e1, e2]; exact ⟨rfl, Ne.symm (hA.key q hq).2⟩
  have hold : ∀ p ∈ B, ∃ o ∈ N.2, ((p.2.src = image D o.src ∧ p.2.dst = image D o.dst) ∨
      (p.2.dst = image D o.src ∧ p.2.src = image D o.dst)) ∧ p.2.lanes = o.lanes ∧ p.2.speed = o.speed := by
    intro p hp
    rcases hnew p hp with h | ⟨q, hq, e1, e2⟩
    · obtain ⟨o, ho, a, b, c, d⟩ := hA.old p h
      exact ⟨o, ho, .inl ⟨a, b⟩, c, d⟩
    · obtain ⟨o, ho, a, b, c, d⟩ := hA.old q hq
      rw [e2]
      exact ⟨o, ho, .inr ⟨a, b⟩, c, d⟩
  have hlen : ∀ p ∈ B, ∃ a b, posOf (positions N.1) p.2.src = .ok a ∧ posOf (positions N.1) p.2.dst = .ok b ∧
      p.2.len = dist a b := by
    intro p hp
    rcases hnew p hp with h | ⟨q, hq, e1, e2⟩
    · exact hA.len p h
    · obtain ⟨a, b, ha, hb, e⟩ := hA.len q hq
      rw [e2]
      exact ⟨b, a, hb, ha, by rw [hsym]; exact e⟩
  have hBmap : (B.map Prod.snd).map (fun l => (l.src, l.dst)) = B.map Prod.fst := by
    rw [List.map_map]
    exact List.map_congr_left (fun p hp => (hkey p hp).1.symm)
  -- the nodes of the result
  have hends : ∀ p ∈ B, (∃ i, p.2.src = image D i ∧ i ∈ N.1.map ONode.id) ∧
      (∃ i, p.2.dst = image D i ∧ i ∈ N.1.map ONode.id) := by
    intro p hp
    obtain ⟨o, ho, h | h, _⟩ := hold p hp
    · exact ⟨⟨_, h.1, hsrc o ho⟩, ⟨_, h.2, hdst o ho⟩⟩
    · exact ⟨⟨_, h.2, hdst o ho⟩, ⟨_, h.1, hsrc o ho⟩⟩
  set R : List ONode := (N.1.filter (fun n => decide (n.id ∉ D.map Prod.fst))).filter
    (fun n => decide (n.id ∈ (B.map Prod.snd).map OLink.src ++ (B.map Prod.snd).map OLink.dst)) with hR
  have hrun : mergeRound dist thr both N = .ok (R, B.map Prod.snd) := by
    unfold mergeRound
    dsimp only
    rw [eD]
    change (do
      let A ← N.2.foldlM (relink dist (positions N.1) D) []
      _ : M _) = _
    rw [eA]
    change Except.ok _ = _
    rw [eB]
  have hmemR : ∀ n, n ∈ R ↔ n ∈ N.1 ∧ n.id ∉ D.map Prod.fst ∧
      n.id ∈ (B.map Prod.snd).map OLink.src ++ (B.map Prod.snd).map OLink.dst := by
    intro n
    rw [hR, List.mem_filter, List.mem_filter, decide_eq_true_eq, decide_eq_true_eq]
    tauto
  have hnode : ∀ i j, i = image D j → j ∈ N.1.map ONode.id →
      i ∈ (B.map Prod.snd).map OLink.src ++ (B.map Prod.snd).map OLink.dst → ∃ n ∈ R, n.id = i := by
    intro i j e hj hu
    obtain ⟨n, hn, en⟩ := List.mem_map.1 (himg j hj)
    rw [← e] at en
    refine ⟨n, (hmemR n).2 ⟨hn, ?_, en ▸ hu⟩, en⟩
    rw [en, e]; exact hfree j
  have hsub : R.Sublist N.1 := (List.filter_sublist).trans List.filter_sublist
  have hS' : Sound (R, B.map Prod.snd) := by
    refine ⟨hS.ids.sublist (hsub.map _), fun l hl => ?_, fun l hl => ?_⟩
    · obtain ⟨p, hp, rfl⟩ := List.mem_map.1 hl
      obtain ⟨⟨i, e, hi⟩, _⟩ := hends p hp
      exact hnode _ i e hi (List.mem_append_left _ (List.mem_map_of_mem hl))
    · obtain ⟨p, hp, rfl⟩ := List.mem_map.1 hl
      obtain ⟨_, ⟨i, e, hi⟩⟩ := hends p hp
      exact hnode _ i e hi (List.mem_append_right _ (List.mem_map_of_mem hl))
  have hmeas : Measured dist (R, B.map Prod.snd) := by
    intro l hl
    obtain ⟨m, hm, em⟩ := hS'.src l hl
    obtain ⟨n, hn, en⟩ := hS'.dst l hl
    obtain ⟨p, hp, rfl⟩ := List.mem_map.1 hl
    obtain ⟨a, b, ha, hb, e⟩ := hlen p hp
    have hm' := posOf_node hS.ids (hsub.subset hm)
    have hn' := posOf_node hS.ids (hsub.subset hn)
    rw [em, ha] at hm'; rw [en, hb] at hn'
    cases hm'; cases hn'
    exact ⟨m, hm, n, hn, em, en, e⟩
  have hconn : ∀ a, Connected N.2 a (image D a) := by
    intro a
    rcases image_cases D a with ⟨_, e⟩ | h
    · rw [e]; exact .refl _
    · obtain ⟨l, hl, e | e⟩ := hD.link _ h
      · exact .rel _ _ ⟨l, hl, e.1, e.2⟩
      · exact .symm _ _ (.rel _ _ ⟨l, hl, e.1, e.2⟩)
  refine ⟨(R, B.map Prod.snd), hrun, hS', ?_, hmeas, by rw [hBmap]; exact hnod, hsub, ?_, ?_, ?_,
    ⟨image D, ?_, ?_, hconn, ?_⟩, ?_, ?_⟩
  · intro l hl
    obtain ⟨p, hp, rfl⟩ := List.mem_map.1 hl
    exact (hkey p hp).2
  · intro n hn
    obtain ⟨_, _, h⟩ := (hmemR n).1 hn
    rcases List.mem_append.1 h with h | h
    · obtain ⟨l, hl, e⟩ := List.mem_map.1 h
      exact ⟨l, hl, .inl e⟩
    · obtain ⟨l, hl, e⟩ := List.mem_map.1 h
      exact ⟨l, hl, .inr e⟩
  · intro hb l hl
    obtain ⟨p, hp, rfl⟩ := List.mem_map.1 hl
    obtain ⟨q, hq, e⟩ := List.mem_map.1 (hrev hb p hp)
    rw [(hkey q hq).1, Prod.mk.injEq] at e
    exact ⟨q.2, List.mem_map_of_mem hq, e.1, e.2⟩
  · intro l hl
    obtain ⟨p, hp, rfl⟩ := List.mem_map.1 hl
    obtain ⟨o, ho, _, h1, h2⟩ := hold p hp
    exact ⟨o, ho, h1, h2⟩
  · intro n hn
    obtain ⟨_, h, _⟩ := (hmemR n).1 hn
    unfold image; rw [dGet_none.2 h]; rfl
  · rintro a b ⟨l, hl, rfl, rfl⟩
    by_cases e : image D l.src = image D l.dst
    · exact .inl e
    · obtain ⟨p, hp, h⟩ := List.mem_map.1 (hA.all l hl e)
      rw [(hA.key p hp).1, Prod.mk.injEq] at h
      exact .inr ⟨p.2, List.mem_map_of_mem (hkeep p hp), h.1, h.2⟩
  · rintro a b ⟨l, hl, rfl, rfl⟩
    obtain ⟨p, hp, rfl⟩ := List.mem_map.1 hl
    obtain ⟨o, ho, h | h, _⟩ := hold p hp
    · rw [h.1, h.2]
      exact .trans _ _ _ (.symm _ _ (hconn _)) (.trans _ _ _ (.rel _ _ ⟨o, ho, rfl, rfl⟩) (hconn _))
    · rw [h.1, h.2]
      exact .trans _ _ _ (.symm _ _ (hconn _))
        (.trans _ _ _ (.symm _ _ (.rel _ _ ⟨o, ho, rfl, rfl⟩)) (hconn _))
  · rintro ⟨l, hl, m, hm, n, hn, em, en, hd⟩
    have hne := hD.some ⟨l, hl, _, _, em ▸ posOf_node hS.ids hm, en ▸ posOf_node hS.ids hn, hd⟩
    obtain ⟨p, D', rfl⟩ := List.exists_cons_of_ne_nil hne
    obtain ⟨o, ho, e⟩ := hD.link p List.mem_cons_self
    have hp : p.1 ∈ N.1.map ONode.id := by
      rcases e with e | e
      · rw [← e.1]; exact hsrc o ho
      · rw [← e.2]; exact hdst o ho
    obtain ⟨k, hk, ek⟩ := List.mem_map.1 hp
    rcases Nat.lt_or_ge R.length N.1.length with h | h
    · exact h
    · have := hsub.eq_of_length_le h
      have hk' : k ∈ R := by rw [this]; exact hk
      exact absurd (ek ▸ List.mem_cons_self) ((hmemR k).1 hk').2.1
  · intro hlong l hl
    have h0 : D = [] := by
      refine hD.none (fun l hl ⟨p, q, hp, hq, hd⟩ => ?_)
      obtain ⟨m, hm, em, rfl⟩ := posOf_eq hp
      obtain ⟨n, hn, en, rfl⟩ := posOf_eq hq
      exact absurd (hlong l hl m hm n hn em en) (not_lt.2 hd)
    obtain ⟨m, hm, n, hn, em, en, e⟩ := hmeas l hl
    obtain ⟨p, hp, rfl⟩ := List.mem_map.1 hl
    obtain ⟨o, ho, h, _⟩ := hold p hp
    have hid : ∀ i, image D i = i := fun i => by rw [h0]; rfl
    rw [hid, hid] at h
    rw [e]
    rcases h with h | h
    · exact hlong o ho m (hsub.subset hm) n (hsub.subset hn) (by rw [em, h.1]) (by rw [en, h.2])
    · rw [hsym]
      exact hlong o ho n (hsub.subset hn) m (hsub.subset hm) (by rw [en, h.1]) (by rw [em, h.2])

end Osm
end UX
