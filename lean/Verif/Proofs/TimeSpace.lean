import Verif.Spec.TimeSpace
import Verif.Spec.Utilities
import Verif.Proofs.Externality

/-! # Lemmas on the time-space network -/

namespace UX
open World

theorem foldlM_rel {α β : Type} {R : β → β → Prop} (hr : ∀ b, R b b) (ht : ∀ a b c, R a b → R b c → R a c)
    {f : β → α → M β} : ∀ {xs : List α} {a b : β}, (∀ x ∈ xs, ∀ c d, f c x = .ok d → R c d) → xs.foldlM f a = .ok b →
      R a b ∧ ∀ x ∈ xs, ∃ c d, R a c ∧ f c x = .ok d ∧ R d b := by
  intro xs
  induction xs with
  | nil =>
    intro a b _ h
    simp only [List.foldlM_nil, pure_ok] at h
    subst h
    exact ⟨hr _, by simp⟩
  | cons x xs ih =>
    intro a b hs h
    rw [List.foldlM_cons, bind_ok] at h
    obtain ⟨c, h1, h2⟩ := h
    obtain ⟨h3, h4⟩ := ih (fun y hy => hs y (List.mem_cons_of_mem _ hy)) h2
    have h5 := hs x List.mem_cons_self _ _ h1
    refine ⟨ht _ _ _ h5 h3, ?_⟩
    intro y hy
    rcases List.mem_cons.1 hy with rfl | hy
    · exact ⟨a, c, hr _, h1, h3⟩
    · obtain ⟨c', d, h6, h7, h8⟩ := h4 y hy
      exact ⟨c', d, ht _ _ _ h5 h6, h7, h8⟩

theorem addArc_apply (g : TNode → TNode → Option ℚ) (u v a b : TNode) (w : ℚ) :
    addArc g u v w a b = if a = u ∧ b = v then some w else g a b := by
  unfold addArc
  by_cases h1 : a = u
  · subst h1
    rw [upd_same]
    by_cases h2 : b = v
    · subst h2; rw [upd_same, if_pos ⟨rfl, rfl⟩]
    · rw [upd_ne _ _ h2, if_neg fun h => h2 h.2]
  · rw [upd_ne _ _ h1, if_neg fun h => h1 h.1]

/-- Link `l`, entered at time `t`, gives an arc to time `ta` of weight `q`. -/
def ArcOf (W : World) (tm : ℚ) (d : ℕ) (ts : List ℤ) (t : ℤ) (l : LinkId) (ta : ℤ) (q : ℚ) : Prop :=
  pyGet (W.L.ttActual l) (pyInt (W.fl (t / W.dt))) = .ok q ∧ ta = pyInt (W.fl (W.fl (t + q) / d)) * d ∧
    (ta : ℚ) < tm ∧ ta ∈ ts

theorem ArcOf.unique {W : World} {tm : ℚ} {d : ℕ} {ts : List ℤ} {t : ℤ} {l : LinkId} {ta tb : ℤ} {q r : ℚ}
    (h1 : ArcOf W tm d ts t l ta q) (h2 : ArcOf W tm d ts t l tb r) : ta = tb ∧ q = r := by
  obtain ⟨a1, rfl, -⟩ := h1
  obtain ⟨b1, rfl, -⟩ := h2
  rw [a1] at b1
  simp only [Except.ok.injEq] at b1
  subst b1
  exact ⟨rfl, rfl⟩

/-- Arcs come from links, and arcs are not removed. -/
def Grows (W : World) (tm : ℚ) (d : ℕ) (ts : List ℤ) (g g' : TNode → TNode → Option ℚ) : Prop :=
  (∀ u v, g u v ≠ none → g' u v ≠ none) ∧
  ∀ u v w, g' u v = some w → g u v = some w ∨ ∃ t ∈ ts, ∃ n < W.nNodes, ∃ l ∈ W.N.outlinks n, ∃ ta,
    u = (n, some t) ∧ v = (W.L.endN l, some ta) ∧ ArcOf W tm d ts t l ta w

theorem Grows.refl (W : World) (tm : ℚ) (d : ℕ) (ts : List ℤ) (g : TNode → TNode → Option ℚ) : Grows W tm d ts g g :=
  ⟨fun _ _ h => h, fun _ _ _ h => .inl h⟩

theorem Grows.trans {W : World} {tm : ℚ} {d : ℕ} {ts : List ℤ} (a b c : TNode → TNode → Option ℚ)
    (h1 : Grows W tm d ts a b) (h2 : Grows W tm d ts b c) : Grows W tm d ts a c := by
  refine ⟨fun u v h => h2.1 u v (h1.1 u v h), fun u v w h => ?_⟩
  rcases h2.2 u v w h with h | h
  · exact h1.2 u v w h
  · exact .inr h

theorem tsnLink_grows {W : World} {tm : ℚ} {d : ℕ} {ts : List ℤ} {t : ℤ} (ht : t ∈ ts) {n : NodeId} (hn : n < W.nNodes)
    {l : LinkId} (hl : l ∈ W.N.outlinks n) {g g' : TNode → TNode → Option ℚ} (h : W.tsnLink tm d ts t n g l = .ok g') :
    Grows W tm d ts g g' ∧ ∀ ta q, ArcOf W tm d ts t l ta q → g' (n, some t) (W.L.endN l, some ta) = some q := by
  unfold tsnLink at h
  split at h
  · simp at h
  rw [bind_ok] at h
  obtain ⟨q, h1, h⟩ := h
  dsimp only at h
  split at h
  · rename_i h2
    rw [pure_ok] at h
    subst h
    have hA : ArcOf W tm d ts t l _ q := ⟨h1, rfl, h2.1, h2.2⟩
    refine ⟨⟨fun u v h => ?_, fun u v w h => ?_⟩, fun ta q' ha => ?_⟩
    · rw [addArc_apply]; split
      · simp
      · exact h
    · rw [addArc_apply] at h
      split at h
      · rename_i h3
        rw [Option.some.injEq] at h
        subst h
        exact .inr ⟨t, ht, n, hn, l, hl, _, h3.1, h3.2, hA⟩
      · exact .inl h
    · obtain ⟨rfl, rfl⟩ := hA.unique ha
      rw [addArc_apply, if_pos ⟨rfl, rfl⟩]
  · rename_i h2
    rw [pure_ok] at h
    subst h
    refine ⟨.refl _ _ _ _ _, fun ta q' ha => ?_⟩
    obtain ⟨b1, rfl, b2, b3⟩ := ha
    rw [h1] at b1
    simp only [Except.ok.injEq] at b1
    subst b1
    exact absurd ⟨b2, b3⟩ h2

theorem tsnLinks_spec {W : World} {tm : ℚ} {d : ℕ} {ts : List ℤ} {g : TNode → TNode → Option ℚ}
    (h : W.tsnLinks tm d ts = .ok g) :
    (∀ u v w, g u v = some w → ∃ t ∈ ts, ∃ n < W.nNodes, ∃ l ∈ W.N.outlinks n, ∃ ta,
      u = (n, some t) ∧ v = (W.L.endN l, some ta) ∧ ArcOf W tm d ts t l ta w) ∧
    (∀ t ∈ ts, ∀ n < W.nNodes, ∀ l ∈ W.N.outlinks n, ∀ ta q, ArcOf W tm d ts t l ta q →
      g (n, some t) (W.L.endN l, some ta) ≠ none) := by
  unfold tsnLinks at h
  have s3 : ∀ t ∈ ts, ∀ n < W.nNodes, ∀ l ∈ W.N.outlinks n, ∀ c e, W.tsnLink tm d ts t n c l = .ok e → Grows W tm d ts c e :=
    fun t ht n hn l hl c e he => (tsnLink_grows ht hn hl he).1
  have s2 : ∀ t ∈ ts, ∀ n ∈ List.range W.nNodes, ∀ c e,
      (W.N.outlinks n).foldlM (W.tsnLink tm d ts t n) c = .ok e → Grows W tm d ts c e :=
    fun t ht n hn c e he => (foldlM_rel (Grows.refl W tm d ts) Grows.trans (s3 t ht n (List.mem_range.1 hn)) he).1
  have s1 : ∀ t ∈ ts, ∀ c e, (List.range W.nNodes).foldlM
      (fun g n => (W.N.outlinks n).foldlM (W.tsnLink tm d ts t n) g) c = .ok e → Grows W tm d ts c e :=
    fun t ht c e he => (foldlM_rel (Grows.refl W tm d ts) Grows.trans (s2 t ht) he).1
  obtain ⟨h1, h2⟩ := foldlM_rel (Grows.refl W tm d ts) Grows.trans s1 h
  refine ⟨fun u v w hw => ?_, fun t ht n hn l hl ta q ha => ?_⟩
  · rcases h1.2 u v w hw with h | h
    · simp at h
    · exact h
  · obtain ⟨c1, e1, -, he1, r1⟩ := h2 t ht
    obtain ⟨-, h3⟩ := foldlM_rel (Grows.refl W tm d ts) Grows.trans (s2 t ht) he1
    obtain ⟨c2, e2, -, he2, r2⟩ := h3 n (List.mem_range.2 hn)
    obtain ⟨-, h4⟩ := foldlM_rel (Grows.refl W tm d ts) Grows.trans (s3 t ht n hn) he2
    obtain ⟨c3, e3, -, he3, r3⟩ := h4 l hl
    apply r1.1; apply r2.1; apply r3.1
    rw [(tsnLink_grows ht hn hl he3).2 ta q ha]
    simp

theorem foldl_addArc {α : Type} (f k : α → TNode) (u v : TNode) : ∀ (xs : List α) (g : TNode → TNode → Option ℚ),
    ((∃ x ∈ xs, u = f x ∧ v = k x) → xs.foldl (fun g x => addArc g (f x) (k x) 0) g u v = some 0) ∧
    ((¬ ∃ x ∈ xs, u = f x ∧ v = k x) → xs.foldl (fun g x => addArc g (f x) (k x) 0) g u v = g u v) := by
  intro xs
  induction xs with
  | nil => intro g; simp
  | cons x xs ih =>
    intro g
    rw [List.foldl_cons]
    obtain ⟨h1, h2⟩ := ih (addArc g (f x) (k x) 0)
    by_cases hx : ∃ y ∈ xs, u = f y ∧ v = k y
    · refine ⟨fun _ => h1 hx, fun hc => absurd ?_ hc⟩
      obtain ⟨y, hy, h3⟩ := hx
      exact ⟨y, List.mem_cons_of_mem _ hy, h3⟩
    · rw [h2 hx, addArc_apply]
      refine ⟨?_, ?_⟩
      · rintro ⟨y, hy, h3⟩
        rcases List.mem_cons.1 hy with rfl | hy
        · rw [if_pos h3]
        · exact absurd ⟨y, hy, h3⟩ hx
      · intro hc
        rw [if_neg fun h3 => hc ⟨x, List.mem_cons_self, h3⟩]

theorem tsnEnds_spec (W : World) (ts : List ℤ) (g : TNode → TNode → Option ℚ) (u v : TNode) :
    ((∃ t ∈ ts, ∃ n < W.nNodes, u = (n, some t) ∧ v = (n, none)) → W.tsnEnds ts g u v = some 0) ∧
    ((¬ ∃ t ∈ ts, ∃ n < W.nNodes, u = (n, some t) ∧ v = (n, none)) → W.tsnEnds ts g u v = g u v) := by
  unfold tsnEnds
  have e : ∀ (ts : List ℤ) (g : TNode → TNode → Option ℚ),
      ts.foldl (fun g t => (List.range W.nNodes).foldl (fun g n => addArc g (n, some t) (n, none) 0) g) g =
      (ts.flatMap fun t => (List.range W.nNodes).map fun n => (n, t)).foldl
        (fun g x => addArc g (x.1, some x.2) (x.1, none) 0) g := by
    intro ts
    induction ts with
    | nil => intro g; rfl
    | cons t ts ih =>
      intro g
      rw [List.foldl_cons, ih, List.flatMap_cons, List.foldl_append, List.foldl_map]
  rw [e]
  obtain ⟨h1, h2⟩ := foldl_addArc (fun x : NodeId × ℤ => ((x.1, some x.2) : TNode)) (fun x => (x.1, none)) u v
    (ts.flatMap fun t => (List.range W.nNodes).map fun n => (n, t)) g
  have hiff : (∃ x ∈ ts.flatMap fun t => (List.range W.nNodes).map fun n => ((n, t) : NodeId × ℤ),
      u = (x.1, some x.2) ∧ v = (x.1, none)) ↔ ∃ t ∈ ts, ∃ n < W.nNodes, u = (n, some t) ∧ v = (n, none) := by
    constructor
    · rintro ⟨x, hx, h3⟩
      rw [List.mem_flatMap] at hx
      obtain ⟨t, ht, hx⟩ := hx
      rw [List.mem_map] at hx
      obtain ⟨n, hn, rfl⟩ := hx
      exact ⟨t, ht, n, List.mem_range.1 hn, h3⟩
    · rintro ⟨t, ht, n, hn, h3⟩
      exact ⟨(n, t), List.mem_flatMap.2 ⟨t, ht, List.mem_map.2 ⟨n, List.mem_range.2 hn, rfl⟩⟩, h3⟩
  rw [← hiff]
  exact ⟨h1, h2⟩

/-- The arcs of the finished network. -/
theorem tsnGraph_spec {W : World} {dt : Option ℕ} {tm : ℚ} {d : ℕ} {ts : List ℤ} (hg : W.tsnGrid dt = .ok (tm, d, ts))
    {g : TNode → TNode → Option ℚ} (h : W.tsnGraph dt = .ok g) :
    (∀ u v w, g u v = some w →
      (∃ t ∈ ts, ∃ n < W.nNodes, u = (n, some t) ∧ v = (n, none) ∧ w = 0) ∨
      ∃ t ∈ ts, ∃ n < W.nNodes, ∃ l ∈ W.N.outlinks n, ∃ ta,
        u = (n, some t) ∧ v = (W.L.endN l, some ta) ∧ ArcOf W tm d ts t l ta w) ∧
    (∀ t ∈ ts, ∀ n < W.nNodes, g (n, some t) (n, none) = some 0) ∧
    (∀ t ∈ ts, ∀ n < W.nNodes, ∀ l ∈ W.N.outlinks n, ∀ ta q, ArcOf W tm d ts t l ta q →
      g (n, some t) (W.L.endN l, some ta) ≠ none) := by
  unfold tsnGraph at h
  rw [bind_ok] at h
  obtain ⟨x, e, h⟩ := h
  rw [hg] at e
  simp only [Except.ok.injEq] at e
  subst e
  rw [bind_ok] at h
  obtain ⟨g0, h0, h⟩ := h
  rw [pure_ok] at h
  subst h
  obtain ⟨h1, h2⟩ := tsnLinks_spec h0
  refine ⟨fun u v w hw => ?_, fun t ht n hn => ?_, fun t ht n hn l hl ta q ha => ?_⟩
  · by_cases hc : ∃ t ∈ ts, ∃ n < W.nNodes, u = (n, some t) ∧ v = (n, none)
    · rw [(tsnEnds_spec W ts g0 u v).1 hc, Option.some.injEq] at hw
      obtain ⟨t, ht, n, hn, h3, h4⟩ := hc
      exact .inl ⟨t, ht, n, hn, h3, h4, hw.symm⟩
    · rw [(tsnEnds_spec W ts g0 u v).2 hc] at hw
      exact .inr (h1 u v w hw)
  · exact (tsnEnds_spec W ts g0 _ _).1 ⟨t, ht, n, hn, rfl, rfl⟩
  · rw [(tsnEnds_spec W ts g0 _ _).2]
    · exact h2 t ht n hn l hl ta q ha
    · rintro ⟨t', -, n', -, -, h4⟩
      simp at h4

theorem mem_tsnTimes {tmax d : ℕ} (hd : 0 < d) {t : ℤ} : t ∈ tsnTimes tmax d ↔ ∃ k : ℕ, t = ((k * d : ℕ) : ℤ) ∧ k * d < tmax := by
  unfold tsnTimes
  rw [List.mem_map]
  constructor
  · rintro ⟨k, hk, rfl⟩
    rw [List.mem_range, Nat.lt_div_iff_mul_lt hd] at hk
    exact ⟨k, rfl, by omega⟩
  · rintro ⟨k, rfl, hk⟩
    refine ⟨k, ?_, rfl⟩
    rw [List.mem_range, Nat.lt_div_iff_mul_lt hd]
    omega

theorem tsnGrid_ok {W : World} {dt : Option ℕ} {tm : ℚ} {d : ℕ} {ts : List ℤ} (hg : W.tsnGrid dt = .ok (tm, d, ts)) :
    W.tmax = some tm ∧ 0 < d ∧ ts = tsnTimes (pyInt tm).toNat d ∧
      d = W.tsnStep dt := by
  unfold tsnGrid at hg
  split at hg
  · simp at hg
  · rename_i tm' h1
    split at hg
    · simp at hg
    · rename_i h2
      simp only [Except.ok.injEq, Prod.mk.injEq] at hg
      obtain ⟨rfl, rfl, rfl⟩ := hg
      exact ⟨h1, Nat.pos_of_ne_zero h2, rfl, rfl⟩

end UX
