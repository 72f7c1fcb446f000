import Verif.Proofs.CppDemand
import Verif.Props.Areas
import Verif.Props.CppWrapExample
import Verif.Proofs.Safe
import Mathlib.Algebra.Order.Archimedean.Basic

/-!
# C120: demand functions of the C++ mode
-/

namespace UX.Cpp
open Spec Relation DWrap

theorem Next.result {attr : Option String} {trips : List Trip} {D D' : DWrap} (h : Next attr trips D D') :
    Result attr trips D D' :=
  ⟨by rw [h.c]; exact addTrips_made .., h.attrs, h.path, h.good⟩

/-- **C120.** `adddemand` with `r` vehicles per second, from a flow or a volume: the new vehicles go from `o` to `d`, the
number departed in the first `k` time steps is `⌊k · r · Δt / Δn⌋` for every `k`, and all get the attribute. -/
theorem C120_demand {D D' : DWrap} (h : Good D) {o d : ℕ} (ho : o < D.w.c.g.nNodes) (hd : d < D.w.c.g.nNodes)
    {t0 t1 flow volume r : ℚ} (hw : t0 < t1) (hr : Rate t0 t1 flow volume r) {attr : Option String} {fuel : ℕ}
    (e : D.addDemand o d t0 t1 flow volume attr fuel = .ok D') :
    ∃ deps, Spread (pyInt (t0 / D.w.c.g.deltaT)) (pyInt (t1 / D.w.c.g.deltaT)) (r * D.w.c.g.deltaT / D.w.c.g.deltaN)
      deps ∧ Result attr (deps.map (fun t => ⟨o, d, t⟩)) D D' := by
  obtain ⟨deps, h1, h2⟩ := dAddDemand_next h ho hd hw (by
    rcases hr with ⟨a, b, c⟩ | h
    · exact .inl ⟨a, by rw [b]; norm_num, c⟩
    · exact .inr h) e
  exact ⟨deps, h1, h2.result⟩

/-- **C120.** The call ends and raises no exception. -/
theorem C120_total {D : DWrap} (h : Good D) (o d : ℕ) {t0 t1 flow volume r : ℚ} (hw : t0 < t1)
    (hr : Rate t0 t1 flow volume r) (attr : Option String) :
    ∃ N, ∀ fuel ≥ N, ∃ D', D.addDemand o d t0 t1 flow volume attr fuel = .ok D' := by
  have hq : (if 0 < volume then volume / (t1 - t0) else flow) = r ∧ 0 ≤ r := by
    rcases hr with ⟨h1, h2, rfl⟩ | ⟨h1, rfl⟩
    · exact ⟨if_neg (by rw [h2]; norm_num), h1⟩
    · exact ⟨if_pos h1, div_nonneg h1.le (by linarith)⟩
  obtain ⟨K, hK⟩ := exists_nat_ge ((D.w.c.g.deltaN + r * D.w.c.g.deltaT) / D.w.c.g.deltaN)
  refine ⟨K + 1, fun fuel hf => ?_⟩
  obtain ⟨k, rfl⟩ : ∃ k, fuel = k + 1 := ⟨fuel - 1, by omega⟩
  have hk : D.w.c.g.deltaN + r * D.w.c.g.deltaT ≤ k * D.w.c.g.deltaN := by
    rw [div_le_iff₀ h.dn] at hK
    have : (K : ℚ) ≤ k := by exact_mod_cast (by omega : K ≤ k)
    have := mul_le_mul_of_nonneg_right this h.dn.le
    linarith
  obtain ⟨c, hc⟩ := addDemand_ends (o := o) (d := d) (t0 := t0) (t1 := t1) h.fl h.dn h.dt hq.2 hk
  unfold DWrap.addDemand
  simp only [h.fl, id, hq.1]
  rw [if_neg (by rintro ⟨_, h2⟩; linarith), hc]
  exact ⟨_, rfl⟩

/-- Departures are determined by the rule. -/
theorem spread_unique {a b : ℤ} {q : ℚ} {xs ys : List ℤ} (hx : Spread a b q xs) (hy : Spread a b q ys) : xs = ys := by
  have cnt : ∀ (l : List ℤ) (u : ℤ), (l.filter (fun t => decide (t < u + 1))).length =
      (l.filter (fun t => decide (t < u))).length + l.count u := by
    intro l u
    induction l with
    | nil => rfl
    | cons t l ih =>
      simp only [List.filter_cons, List.count_cons]
      rcases lt_trichotomy t u with h | h | h
      · rw [if_pos (by simp; omega), if_pos (by simpa using h)]
        simp only [List.length_cons, ih, beq_iff_eq, if_neg h.ne]; omega
      · subst h
        rw [if_pos (by simp), if_neg (by simp)]
        simp only [List.length_cons, ih, beq_self_eq_true, if_true]; omega
      · rw [if_neg (by simp; omega), if_neg (by simp; omega), ih]
        simp only [beq_iff_eq, if_neg h.ne']; omega
  have key : ∀ l : List ℤ, Spread a b q l → ∀ u, (l.count u : ℤ) =
      if a ≤ u ∧ u < b then ⌊(((u - a).toNat + 1 : ℕ) : ℚ) * q⌋ - ⌊((u - a).toNat : ℚ) * q⌋ else 0 := by
    intro l hl u
    split
    · rename_i hu
      have h1 := hl.floor (u - a).toNat (by omega)
      have h2 := hl.floor ((u - a).toNat + 1) (by push_cast; omega)
      rw [show a + ((u - a).toNat : ℤ) = u by omega] at h1
      rw [show a + (((u - a).toNat + 1 : ℕ) : ℤ) = u + 1 by push_cast; omega, cnt] at h2
      push_cast at h1 h2 ⊢
      omega
    · rename_i hu
      rw [List.count_eq_zero_of_not_mem (fun hm => hu (hl.window u hm))]; rfl
  have hp : xs.Perm ys := List.perm_iff_count.2 fun u => by
    have := (key xs hx u).trans (key ys hy u).symm
    exact_mod_cast this
  exact hp.eq_of_pairwise (fun _ _ _ _ h1 h2 => le_antisymm h1 h2) hx.sorted hy.sorted

/-- **C120.** The same call of `adddemand` in a Python world and in a C++ world makes the same vehicles. -/
theorem C120_same {W W' : World} {D D' : DWrap} (h : Good D) (hfl : W.cfg.fl = id) (hn : 0 < W.cfg.deltan)
    (hdt : W.cfg.deltat = D.w.c.g.deltaT) (hdn : (W.cfg.deltan : ℚ) = D.w.c.g.deltaN) {o d : ℕ}
    (ho : o < D.w.c.g.nNodes) (hd : d < D.w.c.g.nNodes) {po pd : Ref} {on dn : NodeId} (hon : W.getNode po = .ok on)
    (hdn2 : W.getNode pd = .ok dn) {t0 t1 flow volume r : ℚ} (hw : t0 < t1) (hr : Rate t0 t1 flow volume r)
    {attr : Option String} {fuel : ℕ} (e1 : W.addDemand po pd t0 t1 flow volume = .ok W')
    (e2 : D.addDemand o d t0 t1 flow volume attr fuel = .ok D') :
    ∃ deps : List ℤ, Generated on dn deps W W' ∧ CMade (deps.map (fun t => ⟨o, d, t⟩)) D.w.c D'.w.c := by
  obtain ⟨deps, h1, h2⟩ := C120_demand h ho hd hw hr e2
  obtain ⟨deps', g, s⟩ : ∃ deps, Generated on dn deps W W' ∧ Spread (pyInt (t0 / W.cfg.deltat))
      (pyInt (t1 / W.cfg.deltat)) (r * W.cfg.deltat / W.cfg.deltan) deps := by
    rcases hr with ⟨a, b, rfl⟩ | ⟨a, rfl⟩
    · exact C24_flow hfl hn (by rw [hdt]; exact h.dt) a (by rw [b]; norm_num) hon hdn2 e1
    · exact C24_volume_flow hfl hn (by rw [hdt]; exact h.dt) hw a hon hdn2 e1
  rw [hdt, hdn] at s
  obtain rfl := spread_unique h1 s
  exact ⟨deps, g, h2.made⟩

/-! ### The older functions for sets of nodes -/

theorem pairsLoop_next {t0 t1 flow volume r : ℚ} {attr : Option String} {fuel : ℕ} (hw : t0 < t1)
    (hr : 0 ≤ flow ∧ volume ≤ 0 ∧ r = flow ∨ 0 < volume ∧ r = volume / (t1 - t0)) {ps : List (ℕ × ℕ)} {D D' : DWrap}
    (h : Good D) (hp : ∀ p ∈ ps, p.1 < D.w.c.g.nNodes ∧ p.2 < D.w.c.g.nNodes)
    (e : pairsLoop t0 t1 flow volume attr fuel ps D = .ok D') :
    ∃ trips, PairTrips (pyInt (t0 / D.w.c.g.deltaT)) (pyInt (t1 / D.w.c.g.deltaT))
      (r * D.w.c.g.deltaT / D.w.c.g.deltaN) ps trips ∧ Next attr trips D D' := by
  induction ps generalizing D with
  | nil =>
    rw [pairsLoop, Except.ok.injEq] at e
    subst e
    exact ⟨[], ⟨[], rfl, by simp, rfl⟩, Next.refl h attr⟩
  | cons p ps ih =>
    rw [pairsLoop] at e
    split at e
    · rename_i D1 h1
      obtain ⟨hp1, hp2⟩ := hp p List.mem_cons_self
      obtain ⟨deps, s, n⟩ := dAddDemand_next h hp1 hp2 hw hr h1
      obtain ⟨a, b, c⟩ := n.same
      obtain ⟨trips, ⟨ds, h3, h4, h5⟩, n2⟩ := ih n.good (fun q hq => by
        rw [c]; exact hp q (List.mem_cons_of_mem _ hq)) e
      rw [a, b] at h4
      refine ⟨_, ⟨deps :: ds, by simp [h3], ?_, ?_⟩, n.trans n2⟩
      · intro x hx
        rcases List.mem_cons.1 hx with rfl | hx
        · exact s
        · exact h4 x hx
      · rw [h5]; rfl
    · cases e

theorem pairsDemand_next {D D' : DWrap} (h : Good D) {os ds : List ℕ} (ho : ∀ n ∈ os, n < D.w.c.g.nNodes)
    (hd : ∀ n ∈ ds, n < D.w.c.g.nNodes) {t0 t1 flow volume r : ℚ} (hw : t0 < t1) (hr : Rate t0 t1 flow volume r)
    {attr : Option String} {fuel : ℕ} (e : D.pairsDemand os ds t0 t1 flow volume attr fuel = .ok D') :
    ∃ trips, PairTrips (pyInt (t0 / D.w.c.g.deltaT)) (pyInt (t1 / D.w.c.g.deltaT))
      (r / (os.length * ds.length : ℕ) * D.w.c.g.deltaT / D.w.c.g.deltaN) (allPairs os ds) trips ∧
      Next attr trips D D' := by
  unfold DWrap.pairsDemand at e
  extract_lets k f v at e
  split at e
  · cases e
  rename_i hk
  have hk0 : k ≠ 0 := by
    intro h0
    apply hk
    refine ⟨h0, ?_⟩
    rcases hr with ⟨h1, _, _⟩ | ⟨h1, _⟩
    · left; intro h2; rw [h2] at h1; norm_num at h1
    · right; intro h2; rw [h2] at h1; norm_num at h1
  have hkq : (0:ℚ) < k := by exact_mod_cast Nat.pos_of_ne_zero hk0
  refine pairsLoop_next (r := r / (os.length * ds.length : ℕ)) hw ?_ h ?_ e
  · have hfl := h.fl
    rcases hr with ⟨h1, h2, h3⟩ | ⟨h1, h2⟩
    · left
      have hf : f = flow / k := by
        show (if flow ≠ -1 then D.w.c.g.fl (flow / k) else flow) = _
        rw [if_pos (by intro h4; rw [h4] at h1; norm_num at h1), hfl]; rfl
      have hv : v = -1 := by
        show (if volume ≠ -1 then D.w.c.g.fl (volume / k) else volume) = _
        rw [if_neg (by simpa using h2)]; exact h2
      rw [hf, hv, h3]
      exact ⟨div_nonneg h1 hkq.le, by norm_num, rfl⟩
    · right
      have hv : v = volume / k := by
        show (if volume ≠ -1 then D.w.c.g.fl (volume / k) else volume) = _
        rw [if_pos (by intro h4; rw [h4] at h1; norm_num at h1), hfl]; rfl
      rw [hv, h2]
      refine ⟨div_pos h1 hkq, ?_⟩
      rw [div_right_comm]
  · intro p hp
    unfold allPairs at hp
    rw [List.mem_flatMap] at hp
    obtain ⟨o, h1, h2⟩ := hp
    obtain ⟨d, h3, rfl⟩ := List.mem_map.1 h2
    exact ⟨ho o h1, hd d h3⟩

/-- **C120.** `adddemand_nodes2nodes` gives every pair of a usable origin and a usable destination the same share. -/
theorem C120_nodes {D D' : DWrap} (h : Good D) {os ds : List ℕ} (ho : ∀ n ∈ os, n < D.w.c.g.nNodes)
    (hd : ∀ n ∈ ds, n < D.w.c.g.nNodes) {t0 t1 flow volume r : ℚ} (hw : t0 < t1) (hr : Rate t0 t1 flow volume r)
    {attr : Option String} {fuel : ℕ} (e : D.nodesDemand os ds t0 t1 flow volume attr fuel = .ok D') :
    ∃ trips, (let O := os.filter (fun n => decide (CanLeave D.w.c n))
      let E := ds.filter (fun n => decide (CanEnter D.w.c n))
      PairTrips (pyInt (t0 / D.w.c.g.deltaT)) (pyInt (t1 / D.w.c.g.deltaT))
        (r / (O.length * E.length : ℕ) * D.w.c.g.deltaT / D.w.c.g.deltaN) (allPairs O E) trips) ∧
      Result attr trips D D' := by
  obtain ⟨trips, h1, h2⟩ := pairsDemand_next h (os := D.origs os) (ds := D.dests ds)
    (fun n hn => ho n (List.mem_filter.1 hn).1) (fun n hn => hd n (List.mem_filter.1 hn).1) hw hr e
  exact ⟨trips, h1, h2.result⟩

/-! ### Points and areas -/

theorem sqDist_eq {D : DWrap} (hfl : D.w.c.g.fl = id) (pos : ℕ → ℚ × ℚ) (x y : ℚ) (n : ℕ) :
    D.sqDist pos x y n = sqTo pos x y n := by
  unfold DWrap.sqDist sqTo; rw [hfl]; rfl

/-- **C120.** `get_nearest_node` finds a nearest node, however far, unless there is none. -/
theorem C120_nearest {D : DWrap} (hfl : D.w.c.g.fl = id) (pos : ℕ → ℚ × ℚ) (x y : ℚ) :
    (∀ n, D.nearest pos x y = some n → n < D.w.c.g.nNodes ∧ ∀ m < D.w.c.g.nNodes, sqTo pos x y n ≤ sqTo pos x y m) ∧
    (D.nearest pos x y = none ↔ D.w.c.g.nNodes = 0) := by
  have key : ∀ (ns : List ℕ) (b : ℕ),
      let z := ns.foldl (fun b m => if D.sqDist pos x y m < D.sqDist pos x y b then m else b) b
      (z ∈ b :: ns) ∧ ∀ m ∈ b :: ns, sqTo pos x y z ≤ sqTo pos x y m := by
    intro ns
    induction ns with
    | nil => intro b; simp
    | cons n ns ih =>
      intro b
      have hi := ih (if D.sqDist pos x y n < D.sqDist pos x y b then n else b)
      simp only [sqDist_eq hfl] at hi ⊢
      rw [List.foldl_cons]
      obtain ⟨h1, h2⟩ := hi
      have h3 := h2 _ List.mem_cons_self
      constructor
      · rcases List.mem_cons.1 h1 with h | h
        · rw [h]; split <;> simp
        · exact List.mem_cons_of_mem _ (List.mem_cons_of_mem _ h)
      · intro m hm
        rcases List.mem_cons.1 hm with rfl | hm
        · refine h3.trans ?_
          split
          · rename_i hlt; exact hlt.le
          · exact le_rfl
        · rcases List.mem_cons.1 hm with rfl | hm
          · refine h3.trans ?_
            split
            · exact le_rfl
            · rename_i hlt; exact not_lt.1 hlt
          · exact h2 m (List.mem_cons_of_mem _ hm)
  unfold DWrap.nearest
  cases hN : List.range D.w.c.g.nNodes with
  | nil =>
    have : D.w.c.g.nNodes = 0 := by simpa using hN
    exact ⟨by simp, by simp [this]⟩
  | cons b ns =>
    obtain ⟨h1, h2⟩ := key ns b
    refine ⟨fun n hn => ?_, ?_⟩
    · rw [Option.some.injEq] at hn
      subst hn
      rw [← hN] at h1 h2
      exact ⟨List.mem_range.1 h1, fun m hm => h2 m (List.mem_range.2 hm)⟩
    · constructor
      · simp
      · intro h0; rw [h0] at hN; simp at hN

/-- **C120.** `adddemand_point2point` is `adddemand` between nearest nodes. -/
theorem C120_point {D D' : DWrap} (h : Good D) (pos : ℕ → ℚ × ℚ) {xo yo xd yd t0 t1 flow volume r : ℚ} (hw : t0 < t1)
    (hr : Rate t0 t1 flow volume r) {attr : Option String} {fuel : ℕ}
    (e : D.pointDemand pos xo yo xd yd t0 t1 flow volume attr fuel = .ok D') :
    ∃ o d deps, o < D.w.c.g.nNodes ∧ d < D.w.c.g.nNodes ∧ (∀ m < D.w.c.g.nNodes, sqTo pos xo yo o ≤ sqTo pos xo yo m) ∧
      (∀ m < D.w.c.g.nNodes, sqTo pos xd yd d ≤ sqTo pos xd yd m) ∧
      Spread (pyInt (t0 / D.w.c.g.deltaT)) (pyInt (t1 / D.w.c.g.deltaT)) (r * D.w.c.g.deltaT / D.w.c.g.deltaN) deps ∧
      Result attr (deps.map (fun t => ⟨o, d, t⟩)) D D' := by
  unfold DWrap.pointDemand at e
  split at e
  · rename_i o d h1 h2
    obtain ⟨a, b⟩ := (C120_nearest h.fl pos xo yo).1 o h1
    obtain ⟨a', b'⟩ := (C120_nearest h.fl pos xd yd).1 d h2
    obtain ⟨deps, s, res⟩ := C120_demand h a a' hw hr e
    exact ⟨o, d, deps, a, a', b, b', s, res⟩
  · cases e

theorem orNearest_area {D : DWrap} (hfl : D.w.c.g.fl = id) {pos : ℕ → ℚ × ℚ} {p : ℕ → Bool} {ns : List ℕ} {x y r : ℚ}
    (h : D.orNearest pos ((D.inArea pos x y r).filter p) x y = .ok ns) :
    ns ≠ [] ∧ ∀ n ∈ ns, AreaOf D.w.c pos (fun n => p n = true) x y r n := by
  have mem : ∀ n, n ∈ (D.inArea pos x y r).filter p ↔ n < D.w.c.g.nNodes ∧ p n = true ∧ sqTo pos x y n < r ^ 2 := by
    intro n
    unfold DWrap.inArea
    rw [List.mem_filter, List.mem_filter, List.mem_range, decide_eq_true_eq, sqDist_eq hfl, hfl]
    simp only [id]; tauto
  unfold DWrap.orNearest at h
  split at h
  · rename_i he
    split at h
    · rename_i n hn
      cases h
      obtain ⟨a, b⟩ := (C120_nearest hfl pos x y).1 n hn
      refine ⟨by simp, fun m hm => ?_⟩
      rw [List.mem_singleton] at hm
      subst hm
      refine ⟨a, .inr ⟨fun m hm hc => ?_, b⟩⟩
      have := (mem m).2 ⟨hm, hc⟩
      rw [he] at this; cases this
    · cases h
  · rename_i he
    cases h
    exact ⟨he, fun n hn => by
      obtain ⟨a, b, c⟩ := (mem n).1 hn
      exact ⟨a, .inl ⟨b, c⟩⟩⟩

theorem orNearest_some {D : DWrap} (hfl : D.w.c.g.fl = id) (h0 : 0 < D.w.c.g.nNodes) (pos : ℕ → ℚ × ℚ) (ns : List ℕ)
    (x y : ℚ) : ∃ ms, D.orNearest pos ns x y = .ok ms := by
  unfold DWrap.orNearest
  split
  · cases hn : D.nearest pos x y with
    | none => have := (C120_nearest hfl pos x y).2.1 hn; omega
    | some n => exact ⟨_, rfl⟩
  · exact ⟨_, rfl⟩

theorem areaOf_congr {c : CWorld} {pos : ℕ → ℚ × ℚ} {P Q : ℕ → Prop} (h : ∀ n, P n ↔ Q n) {x y r : ℚ} {n : ℕ}
    (hn : AreaOf c pos P x y r n) : AreaOf c pos Q x y r n := by
  unfold AreaOf at hn ⊢; simpa only [h] using hn

/-- **C120.** `adddemand_area2area` gives every pair of candidates the same share. -/
theorem C120_areas {D D' : DWrap} (h : Good D) (pos : ℕ → ℚ × ℚ) {xo yo ro xd yd rd t0 t1 flow volume r : ℚ}
    (hw : t0 < t1) (hr : Rate t0 t1 flow volume r) {attr : Option String} {fuel : ℕ}
    (e : D.areasDemand pos xo yo ro xd yd rd t0 t1 flow volume attr fuel = .ok D') :
    ∃ O E trips, O ≠ [] ∧ E ≠ [] ∧ (∀ n ∈ O, AreaOf D.w.c pos (CanLeave D.w.c) xo yo ro n) ∧
      (∀ n ∈ E, AreaOf D.w.c pos (CanEnter D.w.c) xd yd rd n) ∧
      PairTrips (pyInt (t0 / D.w.c.g.deltaT)) (pyInt (t1 / D.w.c.g.deltaT))
        (r / (O.length * E.length : ℕ) * D.w.c.g.deltaT / D.w.c.g.deltaN) (allPairs O E) trips ∧
      Result attr trips D D' := by
  unfold DWrap.areasDemand at e
  rw [bind_ok] at e
  obtain ⟨O, h1, e⟩ := e
  rw [bind_ok] at e
  obtain ⟨E, h2, e⟩ := e
  obtain ⟨a, b⟩ := orNearest_area h.fl h1
  obtain ⟨a', b'⟩ := orNearest_area h.fl h2
  obtain ⟨trips, h3, h4⟩ := pairsDemand_next h (fun n hn => (b n hn).1) (fun n hn => (b' n hn).1) hw hr e
  exact ⟨O, E, trips, a, a', fun n hn => areaOf_congr (fun m => by simp [CanLeave]) (b n hn),
    fun n hn => areaOf_congr (fun m => by simp [CanEnter]) (b' n hn), h3, h4.result⟩

/-! ### The newer functions -/

theorem size_eq {D : DWrap} (h : Good D) {t0 t1 flow volume v : ℚ} (hv : Volume t0 t1 flow volume v) :
    D.size t0 t1 flow volume = ⌊v / D.w.c.g.deltaN⌋ ∧ 0 ≤ ⌊v / D.w.c.g.deltaN⌋ := by
  have hnn : 0 ≤ v / D.w.c.g.deltaN := div_nonneg hv.1 h.dn.le
  refine ⟨?_, Int.floor_nonneg.2 hnn⟩
  unfold DWrap.size
  simp only [h.fl, id]
  have : (if 0 ≤ flow ∧ volume = -1 then flow * (t1 - t0) else volume) = v := by
    obtain ⟨h0, rfl | ⟨h1, h2, h3⟩⟩ := hv
    · rw [if_neg]; rintro ⟨-, h2⟩; rw [h2] at h0; norm_num at h0
    · rw [if_pos ⟨h2, h1⟩]; exact h3.symm
  rw [this]
  exact pyInt_nonneg hnn

theorem draws_ok {xs : List ℕ} {r : ℕ → ℕ} {n : ℕ} (hx : xs ≠ [] ∨ n = 0) :
    ∃ ys, draws xs r n = .ok ys ∧ ys.length = n ∧ ∀ y ∈ ys, y ∈ xs := by
  have key : ∀ ns : List ℕ, (xs ≠ [] ∨ ns = []) → ∃ ys, ns.mapM (fun i => choiceU xs (r i)) = .ok ys ∧
      ys.length = ns.length ∧ ∀ y ∈ ys, y ∈ xs := by
    intro ns
    induction ns with
    | nil => intro _; exact ⟨[], rfl, rfl, by simp⟩
    | cons i ns ih =>
      intro hx
      have hx : xs ≠ [] := by simpa using hx
      obtain ⟨y, hy⟩ := choiceU_safe hx (r i)
      obtain ⟨ys, h1, h2, h3⟩ := ih (.inl hx)
      refine ⟨y :: ys, ?_, by simp [h2], ?_⟩
      · rw [List.mapM_cons, hy]
        change (ns.mapM (fun i => choiceU xs (r i)) >>= fun ys => Except.ok (y :: ys) : M _) = _
        rw [h1]; rfl
      · intro z hz
        rcases List.mem_cons.1 hz with rfl | hz
        · exact choiceU_mem hy
        · exact h3 z hz
  obtain ⟨ys, h1, h2, h3⟩ := key (List.range n) (by simpa using hx)
  exact ⟨ys, h1, by simpa using h2, h3⟩

theorem onesLoop_next {fuel : ℕ} (hf : 2 ≤ fuel) {ps : List (ℚ × ℕ × ℕ)} {D : DWrap} (h : Good D)
    (hp : ∀ p ∈ ps, 0 ≤ p.1 ∧ p.2.1 < D.w.c.g.nNodes ∧ p.2.2 < D.w.c.g.nNodes) :
    ∃ D', onesLoop fuel ps D = .ok D' ∧
      Next none (ps.map (fun p => ⟨p.2.1, p.2.2, ⌊p.1 / D.w.c.g.deltaT⌋⟩)) D D' := by
  induction ps generalizing D with
  | nil => exact ⟨D, rfl, Next.refl h none⟩
  | cons p ps ih =>
    obtain ⟨t, o, d⟩ := p
    obtain ⟨h1, h2, h3⟩ := hp _ List.mem_cons_self
    obtain ⟨D1, e1, n1⟩ := dAddVehicle_next (attr := none) h h2 h3 h1 hf
    obtain ⟨a, _, c⟩ := n1.same
    obtain ⟨D', e2, n2⟩ := ih n1.good (fun q hq => by rw [c]; exact hp q (List.mem_cons_of_mem _ hq))
    refine ⟨D', ?_, ?_⟩
    · change (match D.addVehicle t o d none fuel with
        | .ok D1 => onesLoop fuel ps D1
        | .error e => .error e) = _
      rw [e1]; exact e2
    · rw [a] at n2
      exact n1.trans n2

theorem onesLoop2_next {fuel : ℕ} (hf : 2 ≤ fuel) {ds : List ℕ} {r : ℕ → ℕ} {ps : List (ℚ × ℕ × ℕ)} {i : ℕ} {D : DWrap}
    (h : Good D) (hds : ∀ d ∈ ds, d < D.w.c.g.nNodes)
    (hp : ∀ p ∈ ps, 0 ≤ p.1 ∧ p.2.1 < D.w.c.g.nNodes ∧ p.2.2 ∈ ds ∧ ∃ d ∈ ds, d ≠ p.2.1) :
    ∃ D' trips, onesLoop2 ds r fuel i ps D = .ok D' ∧ Next none trips D D' ∧
      List.Forall₂ (fun (p : ℚ × ℕ × ℕ) (t : Trip) => t.orig = p.2.1 ∧ t.dest ∈ ds ∧ t.orig ≠ t.dest ∧
        t.step = ⌊p.1 / D.w.c.g.deltaT⌋) ps trips := by
  induction ps generalizing D i with
  | nil => exact ⟨D, [], rfl, Next.refl h none, .nil⟩
  | cons p ps ih =>
    obtain ⟨t, o, d⟩ := p
    obtain ⟨h1, h2, h3, h4⟩ := hp _ List.mem_cons_self
    change 0 ≤ t at h1
    change o < _ at h2
    change d ∈ ds at h3
    change ∃ d ∈ ds, d ≠ o at h4
    obtain ⟨d2, e0, hd2, hne⟩ : ∃ d2, otherDest ds o d (r i) = .ok d2 ∧ d2 ∈ ds ∧ o ≠ d2 := by
      unfold otherDest
      split
      · rename_i hod
        subst hod
        obtain ⟨x, hx1, hx2⟩ := h4
        obtain ⟨y, hy⟩ := choiceU_safe (xs := ds.filter (fun e => decide (e ≠ o)))
          (List.ne_nil_of_mem (List.mem_filter.2 ⟨hx1, by simpa using hx2⟩)) (r i)
        have := choiceU_mem hy
        rw [List.mem_filter, decide_eq_true_eq] at this
        exact ⟨y, hy, this.1, this.2.symm⟩
      · rename_i hod
        exact ⟨d, rfl, h3, hod⟩
    obtain ⟨D1, e1, n1⟩ := dAddVehicle_next (attr := none) h h2 (hds d2 hd2) h1 hf
    obtain ⟨a, _, c⟩ := n1.same
    obtain ⟨D', trips, e2, n2, f⟩ := ih (i := i + 1) n1.good (by rw [c]; exact hds)
      (fun q hq => by rw [c]; exact hp q (List.mem_cons_of_mem _ hq))
    rw [a] at f
    refine ⟨D', _ :: trips, ?_, n1.trans n2, .cons ⟨rfl, hd2, hne, rfl⟩ f⟩
    change (match otherDest ds o d (r i) with
      | .error e => (.error e : M DWrap)
      | .ok d2 => match D.addVehicle t o d2 none fuel with
        | .ok D1 => onesLoop2 ds r fuel (i + 1) ps D1
        | .error e => .error e) = _
    rw [e0]
    simp only [e1]
    exact e2

theorem linspace_nonneg {t0 t1 : ℚ} (h0 : 0 ≤ t0) (h1 : t0 ≤ t1) {n : ℕ} {t : ℚ} (h : t ∈ World.linspace id t0 t1 n) :
    0 ≤ t := by
  obtain ⟨j, hj, rfl⟩ := List.getElem_of_mem h
  rw [linspace_get (List.getElem?_eq_getElem hj)]
  have : 0 ≤ (t1 - t0) / ((n - 1 : ℕ) : ℚ) := div_nonneg (by linarith) (by positivity)
  positivity

/-- **C120.** `adddemand_nodes2nodes2` creates exactly the requested platoons, evenly spaced, between usable nodes and
never from a node to itself. The vehicles get no attribute. -/
theorem C120_nodes2 {D : DWrap} (h : Good D) {os ds : List ℕ} (ho : ∀ n ∈ os, n < D.w.c.g.nNodes)
    (hd : ∀ n ∈ ds, n < D.w.c.g.nNodes) (h1 : ∃ n ∈ os, CanLeave D.w.c n)
    (h2 : ∀ n ∈ os, CanLeave D.w.c n → ∃ m ∈ ds, CanEnter D.w.c m ∧ m ≠ n) {t0 t1 flow volume v : ℚ} (ht : 0 ≤ t0)
    (hw : t0 ≤ t1) (hv : Volume t0 t1 flow volume v) (attr : Option String) (r1 r2 r3 : ℕ → ℕ) {fuel : ℕ}
    (hf : 2 ≤ fuel) :
    ∃ D' trips, D.nodesDemand2 os ds t0 t1 flow volume attr r1 r2 r3 fuel = .ok D' ∧ Result none trips D D' ∧
      Smooth D.w.c (fun n => n ∈ os ∧ CanLeave D.w.c n) (fun n => n ∈ ds ∧ CanEnter D.w.c n) t0 t1 v trips ∧
      ∀ t ∈ trips, t.orig ≠ t.dest := by
  obtain ⟨e1, e2⟩ := size_eq h hv
  have mo : ∀ n, n ∈ D.origs os ↔ n ∈ os ∧ CanLeave D.w.c n := fun n => by
    unfold DWrap.origs CanLeave; rw [List.mem_filter, decide_eq_true_eq]
  have md : ∀ n, n ∈ D.dests ds ↔ n ∈ ds ∧ CanEnter D.w.c n := fun n => by
    unfold DWrap.dests CanEnter; rw [List.mem_filter, decide_eq_true_eq]
  obtain ⟨n1, hn1, hn2⟩ := h1
  have hO : D.origs os ≠ [] := List.ne_nil_of_mem ((mo n1).2 ⟨hn1, hn2⟩)
  obtain ⟨m1, hm1, hm2, _⟩ := h2 n1 hn1 hn2
  have hE : D.dests ds ≠ [] := List.ne_nil_of_mem ((md m1).2 ⟨hm1, hm2⟩)
  obtain ⟨xo, f1, l1, g1⟩ := draws_ok (r := r1) (n := ⌊v / D.w.c.g.deltaN⌋.toNat) (.inl hO)
  obtain ⟨xd, f2, l2, g2⟩ := draws_ok (r := r2) (n := ⌊v / D.w.c.g.deltaN⌋.toNat) (.inl hE)
  set n := ⌊v / D.w.c.g.deltaN⌋.toNat with hn
  obtain ⟨D', trips, k1, k2, k3⟩ := onesLoop2_next hf (r := r3) (i := 0) (ds := D.dests ds)
    (ps := (World.linspace D.w.c.g.fl t0 t1 n).zip (xo.zip xd)) h (fun d hd' => hd d ((md d).1 hd').1) (by
      intro p hp
      obtain ⟨a, b⟩ := List.of_mem_zip hp
      obtain ⟨b1, b2⟩ := List.of_mem_zip b
      rw [h.fl] at a
      have c1 := (mo _).1 (g1 _ b1)
      refine ⟨linspace_nonneg ht hw a, ho _ c1.1, g2 _ b2, ?_⟩
      obtain ⟨m, q1, q2, q3⟩ := h2 _ c1.1 c1.2
      exact ⟨m, (md m).2 ⟨q1, q2⟩, q3⟩)
  have hlen := k3.length_eq
  simp only [List.length_zip, linspace_length, l1, l2, Nat.min_self] at hlen
  refine ⟨D', trips, ?_, k2.result, ⟨by rw [← hlen, hn, Int.toNat_of_nonneg e2], fun j t hj => ?_, fun t ht' => ?_⟩,
    fun t ht' => ?_⟩
  · unfold DWrap.nodesDemand2
    simp only [e1]
    rw [if_neg (by omega), ← hn, f1]
    change (draws (D.dests ds) r2 n >>= _ : M _) = _
    rw [f2]
    exact k1
  · obtain ⟨hj1, hj2⟩ := List.getElem?_eq_some_iff.1 hj
    have hj3 : j < ((World.linspace D.w.c.g.fl t0 t1 n).zip (xo.zip xd)).length := by
      simp only [List.length_zip, linspace_length, l1, l2, Nat.min_self]; omega
    have := ((List.forall₂_iff_get.1 k3).2 j hj3 hj1).2.2.2
    simp only [List.get_eq_getElem, hj2, List.getElem_zip] at this
    rw [this, ← hlen]
    congr 2
    refine linspace_get (List.getElem?_eq_some_iff.2 ⟨by rw [linspace_length]; omega, ?_⟩)
    simp only [h.fl]
  · obtain ⟨j, hj1, rfl⟩ := List.getElem_of_mem ht'
    have hj3 : j < ((World.linspace D.w.c.g.fl t0 t1 n).zip (xo.zip xd)).length := by
      simp only [List.length_zip, linspace_length, l1, l2, Nat.min_self]; omega
    have := (List.forall₂_iff_get.1 k3).2 j hj3 hj1
    simp only [List.get_eq_getElem, List.getElem_zip] at this
    rw [this.1]
    exact ⟨(mo _).1 (g1 _ (List.getElem_mem _)), (md _).1 this.2.1⟩
  · obtain ⟨j, hj1, rfl⟩ := List.getElem_of_mem ht'
    have hj3 : j < ((World.linspace D.w.c.g.fl t0 t1 n).zip (xo.zip xd)).length := by
      simp only [List.length_zip, linspace_length, l1, l2, Nat.min_self]; omega
    exact ((List.forall₂_iff_get.1 k3).2 j hj3 hj1).2.2.1

/-- **C120.** `adddemand_area2area2` creates exactly the requested platoons, evenly spaced, between candidates of the
areas. The vehicles get no attribute. -/
theorem C120_areas2 {D : DWrap} (h : Good D) (h0 : 0 < D.w.c.g.nNodes) (pos : ℕ → ℚ × ℚ) (xo yo ro xd yd rd : ℚ)
    {t0 t1 flow volume v : ℚ} (ht : 0 ≤ t0) (hw : t0 ≤ t1) (hv : Volume t0 t1 flow volume v) (attr : Option String)
    (r1 r2 : ℕ → ℕ) {fuel : ℕ} (hf : 2 ≤ fuel) :
    ∃ D' trips, D.areasDemand2 pos xo yo ro xd yd rd t0 t1 flow volume attr r1 r2 fuel = .ok D' ∧
      Result none trips D D' ∧ Smooth D.w.c (AreaOf D.w.c pos (CanLeave D.w.c) xo yo ro)
        (AreaOf D.w.c pos (CanEnter D.w.c) xd yd rd) t0 t1 v trips := by
  obtain ⟨e1, e2⟩ := size_eq h hv
  obtain ⟨O, hO⟩ := orNearest_some h.fl h0 pos (D.origs (D.inArea pos xo yo ro)) xo yo
  obtain ⟨E, hE⟩ := orNearest_some h.fl h0 pos (D.dests (D.inArea pos xd yd rd)) xd yd
  obtain ⟨a, b⟩ := orNearest_area h.fl hO
  obtain ⟨a', b'⟩ := orNearest_area h.fl hE
  obtain ⟨zo, f1, l1, g1⟩ := draws_ok (r := r1) (n := ⌊v / D.w.c.g.deltaN⌋.toNat) (.inl a)
  obtain ⟨zd, f2, l2, g2⟩ := draws_ok (r := r2) (n := ⌊v / D.w.c.g.deltaN⌋.toNat) (.inl a')
  set n := ⌊v / D.w.c.g.deltaN⌋.toNat with hn
  obtain ⟨D', k1, k2⟩ := onesLoop_next hf (ps := (World.linspace D.w.c.g.fl t0 t1 n).zip (zo.zip zd)) h (by
    intro p hp
    obtain ⟨q, q'⟩ := List.of_mem_zip hp
    obtain ⟨b1, b2⟩ := List.of_mem_zip q'
    rw [h.fl] at q
    exact ⟨linspace_nonneg ht hw q, (b _ (g1 _ b1)).1, (b' _ (g2 _ b2)).1⟩)
  have hlen : (((World.linspace D.w.c.g.fl t0 t1 n).zip (zo.zip zd)).map
      (fun p => (⟨p.2.1, p.2.2, ⌊p.1 / D.w.c.g.deltaT⌋⟩ : Trip))).length = n := by
    simp only [List.length_map, List.length_zip, linspace_length, l1, l2, Nat.min_self]
  refine ⟨D', _, ?_, k2.result, ⟨by rw [hlen, hn, Int.toNat_of_nonneg e2], fun j t hj => ?_, fun t ht' => ?_⟩⟩
  · unfold DWrap.areasDemand2
    rw [hO]
    change (D.orNearest pos (D.dests (D.inArea pos xd yd rd)) xd yd >>= _ : M _) = _
    rw [hE]
    change (if D.size t0 t1 flow volume < 0 then _ else _ : M _) = _
    rw [e1, if_neg (by omega), ← hn, f1]
    change (draws E r2 n >>= _ : M _) = _
    rw [f2]
    exact k1
  · obtain ⟨hj1, hj2⟩ := List.getElem?_eq_some_iff.1 hj
    rw [hlen]
    rw [List.getElem_map, List.getElem_zip] at hj2
    rw [← hj2]
    dsimp only
    congr 2
    rw [List.length_map, List.length_zip, linspace_length] at hj1
    refine linspace_get (List.getElem?_eq_some_iff.2 ⟨by rw [linspace_length]; omega, ?_⟩)
    simp only [h.fl]
  · obtain ⟨p, hp, rfl⟩ := List.mem_map.1 ht'
    obtain ⟨_, q'⟩ := List.of_mem_zip hp
    obtain ⟨b1, b2⟩ := List.of_mem_zip q'
    exact ⟨areaOf_congr (fun m => by simp [CanLeave]) (b _ (g1 _ b1)),
      areaOf_congr (fun m => by simp [CanEnter]) (b' _ (g2 _ b2))⟩

/-! ### Concrete cases -/

/-- Two nodes, a link each way. -/
def ringCmds : List WCmd := [.node, .node, .link 0 1, .link 1 0]

def wRing : Wrap := (wRun (wNew id 100 5 1) ringCmds).getD (wNew id 100 5 1)

def dRing : DWrap := ⟨wRing, []⟩

/-- The first node is at 0, the second at 1000. -/
def ringPos (n : ℕ) : ℚ × ℚ := (1000 * n, 0)

theorem wRing_run : wRun (wNew id 100 5 1) ringCmds = some wRing := by
  have h : (wRun (wNew id 100 5 1) ringCmds).isSome = true := by decide +kernel
  obtain ⟨W, hW⟩ := Option.isSome_iff_exists.1 h
  unfold wRing; rw [hW]; rfl

theorem ringCmds_named : ∀ c ∈ ringCmds, c.Named NotNumber := by
  intro c hc
  simp only [ringCmds, List.mem_cons, List.not_mem_nil, or_false] at hc
  rcases hc with rfl | rfl | rfl | rfl <;> exact trivial

theorem dRing_good : Good dRing where
  reach := wRun_reach (wNew_reach ..) ringCmds_named wRing_run
  fl := wRun_fl (wNew_reach ..) ringCmds_named wRing_run
  dt := by decide +kernel
  dn := by decide +kernel
  attrs := by decide +kernel

def dObs (x : M DWrap) (f : DWrap → Bool) : Bool :=
  match x with
  | .ok D => f D
  | .error _ => false

theorem dObs_ok {x : M DWrap} {f : DWrap → Bool} (h : dObs x f = true) : ∃ D, x = .ok D ∧ f D = true := by
  cases x with
  | error e => cases h
  | ok D => exact ⟨D, rfl, h⟩

/-- C120: half a vehicle per second for 45 s makes four platoons of five, all with the attribute. -/
example : ∃ D', dRing.addDemand 0 1 0 45 (1/2) (-1) (some "bus") 10 = .ok D' ∧
    (D'.attrs = List.replicate 4 (some "bus") ∧
      (List.range 4).map (fun i => (D'.w.c.veh i).depTime) = [5, 15, 25, 35]) := by
  obtain ⟨D', h1, h2⟩ := dObs_ok (x := dRing.addDemand 0 1 0 45 (1/2) (-1) (some "bus") 10)
    (f := fun D' => decide (D'.attrs = List.replicate 4 (some "bus") ∧
      (List.range 4).map (fun i => (D'.w.c.veh i).depTime) = [5, 15, 25, 35])) (by decide +kernel)
  exact ⟨D', h1, of_decide_eq_true h2⟩

/-- C120: 22 vehicles from either node to either node give four platoons, none from a node to itself. -/
example : ∃ D', dRing.nodesDemand2 [0, 1] [0, 1] 0 45 (-1) 22 none (fun i => i) (fun i => i) (fun _ => 0) 10 = .ok D' ∧
    (List.range 5).map (fun i => ((D'.w.c.veh i).orig, (D'.w.c.veh i).dest, (D'.w.c.veh i).depTime)) =
      [(0, 1, 0), (1, 0, 15), (0, 1, 30), (1, 0, 45), (0, 0, 0)] := by
  obtain ⟨D', h1, h2⟩ := dObs_ok
    (x := dRing.nodesDemand2 [0, 1] [0, 1] 0 45 (-1) 22 none (fun i => i) (fun i => i) (fun _ => 0) 10)
    (f := fun D' => decide ((List.range 5).map (fun i => ((D'.w.c.veh i).orig, (D'.w.c.veh i).dest,
      (D'.w.c.veh i).depTime)) = [(0, 1, 0), (1, 0, 15), (0, 1, 30), (1, 0, 45), (0, 0, 0)])) (by decide +kernel)
  exact ⟨D', h1, of_decide_eq_true h2⟩

/-- The hypotheses of `C120_nodes2` hold there. -/
example : (∃ n ∈ [0, 1], CanLeave dRing.w.c n) ∧
    (∀ n ∈ [0, 1], CanLeave dRing.w.c n → ∃ m ∈ [0, 1], CanEnter dRing.w.c m ∧ m ≠ n) ∧ Volume 0 45 (-1) 22 22 :=
  ⟨by decide +kernel, by decide +kernel, by norm_num, .inl rfl⟩

/-- C120: the older functions give every pair the same share, also from a node to itself. -/
example : ∃ D', dRing.areasDemand ringPos 0 0 2000 0 0 10 0 40 (-1) 40 (some "bus") 10 = .ok D' ∧
    (List.range 9).map (fun i => ((D'.w.c.veh i).orig, (D'.w.c.veh i).dest)) =
      [(0, 0), (0, 0), (0, 0), (0, 0), (1, 0), (1, 0), (1, 0), (1, 0), (0, 0)] := by
  obtain ⟨D', h1, h2⟩ := dObs_ok
    (x := dRing.areasDemand ringPos 0 0 2000 0 0 10 0 40 (-1) 40 (some "bus") 10)
    (f := fun D' => decide ((List.range 9).map (fun i => ((D'.w.c.veh i).orig, (D'.w.c.veh i).dest)) =
      [(0, 0), (0, 0), (0, 0), (0, 0), (1, 0), (1, 0), (1, 0), (1, 0), (0, 0)])) (by decide +kernel)
  exact ⟨D', h1, of_decide_eq_true h2⟩

/-- C120: a point far away is served by the nearest node. -/
example : dRing.nearest ringPos 1000000 1000000 = some 1 := by decide +kernel

/-- **C120 is false in this respect**: `adddemand_area2area2` of the C++ mode makes trips from a node to itself although
another destination is at hand, which the Python mode avoids (`uxsim.py:2256–2258`). -/
theorem C120_self_false : ¬ ∀ (D D' : DWrap) (pos : ℕ → ℚ × ℚ) (xo yo ro xd yd rd t0 t1 flow volume : ℚ)
    (attr : Option String) (r1 r2 : ℕ → ℕ) (fuel : ℕ), Good D →
    (∀ n, AreaOf D.w.c pos (CanLeave D.w.c) xo yo ro n →
      ∃ m, m ≠ n ∧ AreaOf D.w.c pos (CanEnter D.w.c) xd yd rd m) →
    D.areasDemand2 pos xo yo ro xd yd rd t0 t1 flow volume attr r1 r2 fuel = .ok D' →
    ∀ i, D.w.c.g.nVehs ≤ i → i < D'.w.c.g.nVehs → (D'.w.c.veh i).orig ≠ (D'.w.c.veh i).dest := by
  intro h
  obtain ⟨D', h1, h2⟩ := dObs_ok
    (x := dRing.areasDemand2 ringPos 0 0 2000 0 0 2000 0 40 (-1) 5 none (fun _ => 0) (fun _ => 0) 10)
    (f := fun D' => decide (dRing.w.c.g.nVehs ≤ 0 ∧ 0 < D'.w.c.g.nVehs ∧ (D'.w.c.veh 0).orig = (D'.w.c.veh 0).dest))
    (by decide +kernel)
  obtain ⟨a, b, c⟩ := of_decide_eq_true h2
  refine h dRing D' ringPos 0 0 2000 0 0 2000 0 40 (-1) 5 none _ _ 10 dRing_good ?_ h1 0 a b c
  have hN : dRing.w.c.g.nNodes = 2 := by decide +kernel
  have h0 : CanEnter dRing.w.c 0 := by decide +kernel
  have h1 : CanEnter dRing.w.c 1 := by decide +kernel
  rintro n ⟨hn, -⟩
  rw [hN] at hn
  obtain rfl | rfl : n = 0 ∨ n = 1 := by omega
  · exact ⟨1, by decide, by rw [hN]; decide, .inl ⟨h1, by norm_num [sqTo, ringPos]⟩⟩
  · exact ⟨0, by decide, by rw [hN]; decide, .inl ⟨h0, by norm_num [sqTo, ringPos]⟩⟩

/-- **C120 is false in this respect**: `adddemand_area2area2` and `adddemand_nodes2nodes2` of the C++ mode drop the
attribute. -/
theorem C120_attr_false : ¬ ∀ (D D' : DWrap) (os ds : List ℕ) (t0 t1 flow volume : ℚ) (attr : Option String)
    (r1 r2 r3 : ℕ → ℕ) (fuel : ℕ), Good D → D.nodesDemand2 os ds t0 t1 flow volume attr r1 r2 r3 fuel = .ok D' →
    ∀ i, D.attrs.length ≤ i → i < D'.attrs.length → D'.attrs[i]? = some attr := by
  intro h
  obtain ⟨D', h1, h2⟩ := dObs_ok
    (x := dRing.nodesDemand2 [0] [1] 0 40 (-1) 5 (some "bus") (fun _ => 0) (fun _ => 0) (fun _ => 0) 10)
    (f := fun D' => decide (D'.attrs = [none])) (by decide +kernel)
  have h3 : D'.attrs = [none] := of_decide_eq_true h2
  have := h dRing D' _ _ _ _ _ _ _ _ _ _ _ dRing_good h1 0 le_rfl (by rw [h3]; decide)
  rw [h3] at this
  exact absurd this (by decide)

end UX.Cpp
