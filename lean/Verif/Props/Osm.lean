import Verif.Proofs.Osm
import Mathlib.Data.Rat.Lemmas
import Mathlib.Algebra.Order.Group.Unbundled.Abs
import Mathlib.Algebra.Order.Ring.Rat
import Mathlib.Tactic.NormNum

/-!
# C115: the post-processing of an imported network keeps it usable and connected
-/

namespace UX
namespace Osm
open Spec

/-- All rounds: what C115 needs. -/
theorem post_ok (dist : ℚ × ℚ → ℚ × ℚ → ℚ) (hsym : ∀ p q, dist p q = dist q p) (thr : ℚ) (both : Bool) (k : ℕ) :
    ∀ {N : List ONode × List OLink}, Sound N → Loopless N.2 →
    ∃ N', postprocess dist thr both k N = .ok N' ∧ Sound N' ∧ Loopless N'.2 ∧ N'.1.Sublist N.1 ∧
      (∀ l ∈ N'.2, ∃ o ∈ N.2, l.lanes = o.lanes ∧ l.speed = o.speed) ∧
      (∀ m ∈ N'.1, ∀ n ∈ N'.1, Drive N.2 m.id n.id → Drive N'.2 m.id n.id) ∧
      (∀ m ∈ N'.1, ∀ n ∈ N'.1, Connected N.2 m.id n.id ↔ Connected N'.2 m.id n.id) ∧
      (0 < k → Measured dist N' ∧ (N'.2.map (fun l => (l.src, l.dst))).Nodup ∧
        (∀ n ∈ N'.1, ∃ l ∈ N'.2, l.src = n.id ∨ l.dst = n.id) ∧
        (both = true → ∀ l ∈ N'.2, ∃ m ∈ N'.2, m.src = l.dst ∧ m.dst = l.src)) := by
  induction k with
  | zero =>
    intro N hS hL
    exact ⟨N, rfl, hS, hL, List.Sublist.refl _, fun l hl => ⟨l, hl, rfl, rfl⟩, fun _ _ _ _ h => h,
      fun _ _ _ _ => Iff.rfl, fun h => absurd h (by omega)⟩
  | succ k ih =>
    intro N hS hL
    obtain ⟨N1, e1, R⟩ := round_ok dist hsym thr both hS hL
    obtain ⟨N', e', hS', hL', hsub, hattr, hdr, hco, hk⟩ := ih R.sound R.loopless
    obtain ⟨f, hfix, hedge, hf, hback⟩ := R.moved
    have hdrive : ∀ a b, Drive N.2 a b → Drive N1.2 (f a) (f b) := by
      intro a b h
      induction h with
      | refl => exact .refl
      | tail _ h2 ih2 =>
        rcases hedge _ _ h2 with e | e
        · rw [← e]; exact ih2
        · exact .tail ih2 e
    have hcon : ∀ a b, Connected N.2 a b → Connected N1.2 (f a) (f b) := by
      intro a b h
      induction h with
      | rel x y h =>
        rcases hedge x y h with e | e
        · rw [e]; exact .refl _
        · exact .rel _ _ e
      | refl x => exact .refl _
      | symm x y _ ih2 => exact .symm _ _ ih2
      | trans x y z _ _ i1 i2 => exact .trans _ _ _ i1 i2
    have hcon' : ∀ a b, Connected N1.2 a b → Connected N.2 a b := by
      intro a b h
      induction h with
      | rel x y h => exact hback x y h
      | refl x => exact .refl _
      | symm x y _ ih2 => exact .symm _ _ ih2
      | trans x y z _ _ i1 i2 => exact .trans _ _ _ i1 i2
    refine ⟨N', ?_, hS', hL', hsub.trans R.sub, ?_, ?_, ?_, fun _ => ?_⟩
    · unfold postprocess; rw [e1]; exact e'
    · intro l hl
      obtain ⟨o, ho, a, b⟩ := hattr l hl
      obtain ⟨o2, ho2, a2, b2⟩ := R.attr o ho
      exact ⟨o2, ho2, a.trans a2, b.trans b2⟩
    · intro m hm n hn h
      refine hdr m hm n hn ?_
      have := hdrive _ _ h
      rwa [hfix m (hsub.subset hm), hfix n (hsub.subset hn)] at this
    · intro m hm n hn
      rw [← hco m hm n hn]
      constructor
      · intro h
        have := hcon _ _ h
        rwa [hfix m (hsub.subset hm), hfix n (hsub.subset hn)] at this
      · exact hcon' _ _
    · cases k with
      | zero =>
        obtain rfl : N1 = N' := by simpa [postprocess] using e'
        exact ⟨R.measured, R.pairs, R.used, R.rev⟩
      | succ j => exact hk (by omega)

/-- C115: for a network without loops `osm_network_postprocessing` never raises. Its nodes are input nodes with their
coordinates; each link joins two different nodes of the result and has the lanes and speed of an input link; after at
least one round no two links join the same nodes in the same direction, every node is an end of a link, the length of
a link is the distance of its ends, and with `enforce_bidirectional` each link has its reverse. -/
theorem C115_network (dist : ℚ × ℚ → ℚ × ℚ → ℚ) (hsym : ∀ p q, dist p q = dist q p) (thr : ℚ) (both : Bool) (k : ℕ)
    {N : List ONode × List OLink} (hS : Sound N) (hL : Loopless N.2) :
    ∃ N', postprocess dist thr both k N = .ok N' ∧ Sound N' ∧ Loopless N'.2 ∧ N'.1.Sublist N.1 ∧
      (∀ l ∈ N'.2, ∃ o ∈ N.2, l.lanes = o.lanes ∧ l.speed = o.speed) ∧
      (0 < k → Measured dist N' ∧ (N'.2.map (fun l => (l.src, l.dst))).Nodup ∧
        (∀ n ∈ N'.1, ∃ l ∈ N'.2, l.src = n.id ∨ l.dst = n.id) ∧
        (both = true → ∀ l ∈ N'.2, ∃ m ∈ N'.2, m.src = l.dst ∧ m.dst = l.src)) := by
  obtain ⟨N', h1, h2, h3, h4, h5, _, _, h6⟩ := post_ok dist hsym thr both k hS hL
  exact ⟨N', h1, h2, h3, h4, h5, h6⟩

/-- C115: where one could drive between two remaining nodes, one still can; and two remaining nodes are connected
(directions disregarded) exactly if they were. -/
theorem C115_connected (dist : ℚ × ℚ → ℚ × ℚ → ℚ) (hsym : ∀ p q, dist p q = dist q p) (thr : ℚ) (both : Bool) (k : ℕ)
    {N N' : List ONode × List OLink} (hS : Sound N) (hL : Loopless N.2)
    (h : postprocess dist thr both k N = .ok N') :
    (∀ m ∈ N'.1, ∀ n ∈ N'.1, Drive N.2 m.id n.id → Drive N'.2 m.id n.id) ∧
    ∀ m ∈ N'.1, ∀ n ∈ N'.1, Connected N.2 m.id n.id ↔ Connected N'.2 m.id n.id := by
  obtain ⟨N2, h1, _, _, _, _, h5, h6, _⟩ := post_ok dist hsym thr both k hS hL
  rw [h] at h1
  cases h1
  exact ⟨h5, h6⟩

/-- C115: with `enforce_bidirectional` and at least one round one can drive between any two remaining nodes that were
connected, whatever the directions of the links were. -/
theorem C115_two_way (dist : ℚ × ℚ → ℚ × ℚ → ℚ) (hsym : ∀ p q, dist p q = dist q p) (thr : ℚ) {k : ℕ} (hk : 0 < k)
    {N N' : List ONode × List OLink} (hS : Sound N) (hL : Loopless N.2)
    (h : postprocess dist thr true k N = .ok N') :
    ∀ m ∈ N'.1, ∀ n ∈ N'.1, Connected N.2 m.id n.id → Drive N'.2 m.id n.id := by
  obtain ⟨N2, h1, _, _, _, _, _, h6, h7⟩ := post_ok dist hsym thr true k hS hL
  rw [h] at h1
  cases h1
  have hrev := (h7 hk).2.2.2 rfl
  have hsy : ∀ a b, Edge N'.2 a b → Edge N'.2 b a := by
    rintro a b ⟨l, hl, rfl, rfl⟩
    obtain ⟨m, hm, e1, e2⟩ := hrev l hl
    exact ⟨m, hm, e1, e2⟩
  have key : ∀ a b, Connected N'.2 a b → Drive N'.2 a b ∧ Drive N'.2 b a := by
    intro a b h
    induction h with
    | rel x y h => exact ⟨.single h, .single (hsy _ _ h)⟩
    | refl x => exact ⟨.refl, .refl⟩
    | symm x y _ i => exact ⟨i.2, i.1⟩
    | trans x y z _ _ i1 i2 => exact ⟨i1.1.trans i2.1, i2.2.trans i1.2⟩
  intro m hm n hn hc
  exact (key _ _ ((h6 m hm n hn).1 hc)).1

/-- After `k` rounds at least `k` nodes have gone, or no short link is left. -/
theorem post_less (dist : ℚ × ℚ → ℚ × ℚ → ℚ) (hsym : ∀ p q, dist p q = dist q p) (thr : ℚ) (both : Bool) (k : ℕ) :
    ∀ {N N' : List ONode × List OLink}, Sound N → Loopless N.2 → postprocess dist thr both k N = .ok N' →
    (N.1.length ≤ k ∨ (∀ l ∈ N.2, ∀ m ∈ N.1, ∀ n ∈ N.1, m.id = l.src → n.id = l.dst →
      thr < dist (m.x, m.y) (n.x, n.y)) ∧ 0 < k) → ∀ l ∈ N'.2, thr < l.len := by
  induction k with
  | zero =>
    intro N N' hS hL e hc l hl
    obtain rfl : N = N' := by simpa [postprocess] using e
    rcases hc with h | h
    · obtain ⟨n, hn, _⟩ := hS.src l hl
      rw [List.length_eq_zero_iff.1 (Nat.le_zero.1 h)] at hn
      simp at hn
    · omega
  | succ k ih =>
    intro N N' hS hL e hc
    obtain ⟨N1, e1, R⟩ := round_ok dist hsym thr both hS hL
    have e2 : postprocess dist thr both k N1 = .ok N' := by
      unfold postprocess at e; rw [e1] at e; exact e
    by_cases hs : ∃ l ∈ N.2, ∃ m ∈ N.1, ∃ n ∈ N.1, m.id = l.src ∧ n.id = l.dst ∧ dist (m.x, m.y) (n.x, n.y) ≤ thr
    · rcases hc with h | h
      · exact ih R.sound R.loopless e2 (.inl (by have := R.less hs; omega))
      · obtain ⟨l, hl, m, hm, n, hn, em, en, hd⟩ := hs
        exact absurd (h.1 l hl m hm n hn em en) (not_lt.2 hd)
    · have hlong : ∀ l ∈ N.2, ∀ m ∈ N.1, ∀ n ∈ N.1, m.id = l.src → n.id = l.dst →
          thr < dist (m.x, m.y) (n.x, n.y) := by
        intro l hl m hm n hn em en
        exact not_le.1 (fun hd => hs ⟨l, hl, m, hm, n, hn, em, en, hd⟩)
      have h1 := R.long hlong
      cases k with
      | zero =>
        obtain rfl : N1 = N' := by simpa [postprocess] using e2
        exact h1
      | succ j =>
        refine ih R.sound R.loopless e2 (.inr ⟨fun l hl m hm n hn em en => ?_, by omega⟩)
        obtain ⟨m', hm', n', hn', em', en', e⟩ := R.measured l hl
        have a := h1 l hl
        rw [e, node_unique R.sound.ids hm' hm (em'.trans em.symm), node_unique R.sound.ids hn' hn (en'.trans en.symm)]
          at a
        exact a

/-- C115: as many rounds as there are nodes leave no link of length at most the threshold. -/
theorem C115_long (dist : ℚ × ℚ → ℚ × ℚ → ℚ) (hsym : ∀ p q, dist p q = dist q p) (thr : ℚ) (both : Bool) {k : ℕ}
    {N N' : List ONode × List OLink} (hS : Sound N) (hL : Loopless N.2) (hk : N.1.length ≤ k)
    (h : postprocess dist thr both k N = .ok N') : ∀ l ∈ N'.2, thr < l.len :=
  post_less dist hsym thr both k hS hL h (.inl hk)

/-! ## Cases

All nodes lie on the x-axis, where the distance is `|x - x'|`. -/

/-- The distance on the x-axis. -/
def axis (p q : ℚ × ℚ) : ℚ := |p.1 - q.1|

theorem axis_symm (p q : ℚ × ℚ) : axis p q = axis q p := abs_sub_comm _ _

/-- Four nodes: 1 and 2 are near each other, 3 and 4 far away; 4 is reached from 3 only. -/
def town : List ONode × List OLink :=
  ([⟨1, 0, 0⟩, ⟨2, 1, 0⟩, ⟨3, 50, 0⟩, ⟨4, 90, 0⟩],
   [⟨"a", 1, 2, 1, 10, 0⟩, ⟨"b", 2, 3, 2, 20, 0⟩, ⟨"c", 3, 4, 3, 30, 0⟩, ⟨"d", 3, 1, 1, 15, 0⟩])

theorem town_ok : Sound town ∧ Loopless town.2 := by
  refine ⟨⟨by decide, ?_, ?_⟩, ?_⟩
  · decide
  · decide
  · unfold Loopless; decide

/-- C115 is not vacuous: node 2 is merged into node 1, the short link is gone, the others get reverse links and
their lengths. -/
theorem C115_case :
    postprocess axis 5 true 5 town = .ok
      ([⟨1, 0, 0⟩, ⟨3, 50, 0⟩, ⟨4, 90, 0⟩],
       [⟨"b", 1, 3, 2, 20, 50⟩, ⟨"c", 3, 4, 3, 30, 40⟩, ⟨"d", 3, 1, 1, 15, 50⟩, ⟨"c-reverse", 4, 3, 3, 30, 40⟩]) := by
  decide +kernel

/-- A network with a loop at node 1. -/
def loopTown : List ONode × List OLink :=
  ([⟨1, 0, 0⟩, ⟨2, 50, 0⟩], [⟨"loop", 1, 1, 1, 10, 0⟩, ⟨"a", 1, 2, 1, 10, 0⟩])

/-- C115, finding: with a loop the node is merged into itself. One round deletes it but keeps its links, so that the
result is not a network; the second round raises `KeyError`. -/
theorem C115_loop_false :
    Sound loopTown ∧ (∃ N', postprocess axis 5 false 1 loopTown = .ok N' ∧ ¬ Sound N') ∧
    postprocess axis 5 false 2 loopTown = .error .keyError := by
  refine ⟨⟨by decide, by decide, by decide⟩, ⟨([⟨2, 50, 0⟩], [⟨"a", 1, 2, 1, 10, 50⟩]), by decide +kernel, fun h => ?_⟩,
    by decide +kernel⟩
  exact absurd (h.src ⟨"a", 1, 2, 1, 10, 50⟩ (by simp)) (by decide)

/-- Eight nodes around node 0, all closer than the threshold. -/
def starTown : List ONode × List OLink :=
  ((List.range 9).map (fun (i : ℕ) => ⟨i, i, 0⟩), (List.range 8).map (fun i => ⟨"", i + 1, 0, 1, 10, 0⟩))

/-- C115, finding: the default number of rounds (5) can leave links shorter than the threshold; each round merges one
node of a star only. -/
theorem C115_short_false : Sound starTown ∧ Loopless starTown.2 ∧
    ∃ N', postprocess axis 100 false 5 starTown = .ok N' ∧ N'.1.length = 4 ∧ N'.2 ≠ [] ∧ ∀ l ∈ N'.2, l.len ≤ 100 := by
  refine ⟨⟨by decide +kernel, by decide +kernel, by decide +kernel⟩, by unfold Loopless; decide +kernel, ?_⟩
  have h : (match postprocess axis 100 false 5 starTown with
      | .ok N' => decide (N'.1.length = 4 ∧ N'.2 ≠ [] ∧ ∀ l ∈ N'.2, l.len ≤ 100)
      | .error _ => false) = true := by decide +kernel
  cases e : postprocess axis 100 false 5 starTown with
  | error _ => rw [e] at h; simp at h
  | ok N' =>
    rw [e] at h
    exact ⟨N', rfl, of_decide_eq_true h⟩

end Osm
end UX
