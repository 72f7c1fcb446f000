import Mathlib.Algebra.BigOperators.Field
import Mathlib.Algebra.Order.BigOperators.Group.Finset
import Mathlib.Tactic.Linarith
import Mathlib.Tactic.Positivity
import Verif.Spec.CppPrefs
import Verif.Proofs.CppChoiceReach
import Verif.Props.CppRoutes

/-!
# Route preferences of the C++ engine
-/

namespace UX.Cpp
open CWorld Relation Spec

/-- What is known of the preferences in exact arithmetic. -/
structure PrefInv (W : CWorld) : Prop where
  zero : ∀ k l, W.g.nLinks ≤ l → W.g.pref k l = 0
  nonneg : ∀ k l, 0 ≤ W.g.pref k l
  sum : ∀ (k n : ℕ) (s : Finset ℕ), (∀ l ∈ s, l < W.g.nLinks ∧ (W.link l).src = n) →
    Set.InjOn (fun l => (W.link l).dst) s → ∑ l ∈ s, W.g.pref k l ≤ 1
  idle : ∀ k l, W.g.active k = false → W.g.pref k l = 0
  act : updWeight W < 1 → ∀ k, W.g.active k = true → ∃ l, l < W.g.nLinks ∧ 0 < W.g.pref k l

theorem PrefInv.of_eq {W W' : CWorld} (p : PrefInv W) (hp : W'.g.pref = W.g.pref) (ha : W'.g.active = W.g.active)
    (hl : W'.g.nLinks = W.g.nLinks) (hw : updWeight W' = updWeight W)
    (hs : ∀ l, (W'.link l).src = (W.link l).src) (hd : ∀ l, (W'.link l).dst = (W.link l).dst) : PrefInv W' := by
  refine ⟨?_, ?_, fun k n s h i => ?_, ?_, ?_⟩
  · rw [hp, hl]; exact p.zero
  · rw [hp]; exact p.nonneg
  · rw [hp]
    refine p.sum k n s (fun l hx => ?_) (fun a ha b hb e => i ha hb ?_)
    · rw [← hl, ← hs]; exact h l hx
    · simp only [hd]; exact e
  · rw [hp, ha]; exact p.idle
  · rw [hp, ha, hl, hw]; exact p.act

/-- The update. -/
theorem PrefInv.duo {W : CWorld} (p : PrefInv W) (hid : W.g.fl = id) (hw0 : 0 ≤ updWeight W)
    (hw1 : updWeight W ≤ 1) : PrefInv (W.duoUpdate (updWeight W)) := by
  have hwk : ∀ k, 0 ≤ (if W.g.active k then updWeight W else 1) ∧
      (if W.g.active k then updWeight W else 1) ≤ 1 := by
    intro k; split
    · exact ⟨hw0, hw1⟩
    · exact ⟨zero_le_one, le_rfl⟩
  refine ⟨fun k l hl => ?_, fun k l => ?_, fun k n s h i => ?_, fun k l ha => ?_, fun hlt k ha => ?_⟩
  · show (if k < W.g.nNodes ∧ l < W.g.nLinks then _ else W.g.pref k l) = 0
    rw [if_neg (fun h => absurd h.2 (Nat.not_lt.2 hl))]
    exact p.zero k l hl
  · simp only [duoUpdate, hid, id]
    have hn := p.nonneg k l
    have := mul_nonneg (sub_nonneg.2 (hwk k).2) hn
    split
    · split
      · linarith [(hwk k).1]
      · exact this
    · exact hn
  · by_cases hk : k < W.g.nNodes
    · have e : ∀ l ∈ s, (W.duoUpdate (updWeight W)).g.pref k l =
          (1 - (if W.g.active k then updWeight W else 1)) * W.g.pref k l +
            (if W.g.next n k = some (W.link l).dst then (if W.g.active k then updWeight W else 1) else 0) := by
        intro l hl
        have h1 : l < W.g.nLinks := (h l hl).1
        have h2 : (W.link l).src = n := (h l hl).2
        simp only [duoUpdate, hid, id]
        rw [if_pos ⟨hk, h1⟩, h2]
        simp only [decide_eq_true_eq]
        split
        · rfl
        · rw [add_zero]
      rw [Finset.sum_congr rfl e, Finset.sum_add_distrib, ← Finset.mul_sum, ← Finset.sum_filter, Finset.sum_const,
        nsmul_eq_mul]
      have hc : (s.filter (fun l => W.g.next n k = some (W.link l).dst)).card ≤ 1 := by
        refine Finset.card_le_one.2 fun a ha b hb => ?_
        rw [Finset.mem_filter] at ha hb
        refine i ha.1 hb.1 ?_
        exact Option.some.inj (ha.2.symm.trans hb.2)
      have hc' : ((s.filter (fun l => W.g.next n k = some (W.link l).dst)).card : ℚ) ≤ 1 := by exact_mod_cast hc
      have hs := p.sum k n s h i
      have a1 := mul_le_mul_of_nonneg_left hs (sub_nonneg.2 (hwk k).2)
      have a2 := mul_le_mul_of_nonneg_right hc' (hwk k).1
      linarith
    · have e : ∀ l ∈ s, (W.duoUpdate (updWeight W)).g.pref k l = W.g.pref k l := by
        intro l _
        show (if k < W.g.nNodes ∧ l < W.g.nLinks then _ else W.g.pref k l) = _
        rw [if_neg (fun h => hk h.1)]
      rw [Finset.sum_congr rfl e]
      exact p.sum k n s h i
  · have ha' : (W.g.active k || (decide (k < W.g.nNodes) && (List.range W.g.nLinks).any
        (fun l => decide (W.g.next (W.link l).src k = some (W.link l).dst)))) = false := ha
    rw [Bool.or_eq_false_iff] at ha'
    have h0 := p.idle k l ha'.1
    simp only [duoUpdate, hid, id, ha'.1, h0]
    split
    · rename_i hkl
      rw [decide_eq_true hkl.1, Bool.true_and, List.any_eq_false] at ha'
      have := ha'.2 l (List.mem_range.2 hkl.2)
      rw [if_neg this]; simp
    · rfl
  · have ha' : (W.g.active k || (decide (k < W.g.nNodes) && (List.range W.g.nLinks).any
        (fun l => decide (W.g.next (W.link l).src k = some (W.link l).dst)))) = true := ha
    have hlt' : updWeight W < 1 := hlt
    by_cases hb : W.g.active k = true
    · obtain ⟨l, h1, h2⟩ := p.act hlt' k hb
      refine ⟨l, h1, ?_⟩
      simp only [duoUpdate, hid, id, hb, if_true]
      have := mul_pos (sub_pos.2 hlt') h2
      split
      · split
        · linarith
        · exact this
      · exact h2
    · rw [Bool.not_eq_true] at hb
      rw [hb, Bool.false_or, Bool.and_eq_true, decide_eq_true_eq, List.any_eq_true] at ha'
      obtain ⟨hk, l, hl, hon⟩ := ha'
      refine ⟨l, List.mem_range.1 hl, ?_⟩
      simp only [duoUpdate, hid, id, hb, Bool.false_eq_true, if_false]
      rw [if_pos ⟨hk, List.mem_range.1 hl⟩, if_pos hon]
      have := p.idle k l hb
      rw [this]; norm_num

theorem updateAdj_ends (W : CWorld) (l : ℕ) : (W.updateAdj.link l).src = (W.link l).src ∧
    (W.updateAdj.link l).dst = (W.link l).dst := by
  simp only [CWorld.updateAdj]
  split
  · exact ⟨rfl, rfl⟩
  · beta_reduce; split <;> exact ⟨rfl, rfl⟩

theorem updWeight_fix {W W' : CWorld} (h : W'.g.fix = W.g.fix) : updWeight W' = updWeight W := by
  have h1 : W'.g.gradual = W.g.gradual := (congrArg CGlob.gradual h : W'.g.fix.gradual = W.g.fix.gradual)
  have h2 : W'.g.duoWeight = W.g.duoWeight := (congrArg CGlob.duoWeight h : W'.g.fix.duoWeight = W.g.fix.duoWeight)
  have h3 : W'.g.deltaT = W.g.deltaT := (congrArg CGlob.deltaT h : W'.g.fix.deltaT = W.g.fix.deltaT)
  have h4 : W'.g.duoTime = W.g.duoTime := (congrArg CGlob.duoTime h : W'.g.fix.duoTime = W.g.fix.duoTime)
  unfold updWeight
  rw [h1, h2, h3, h4]

/-- The route-choice part of a time step: an update, after a search of shortest paths if it is due. -/
theorem routeStep_eq (W : CWorld) (hid : W.g.fl = id) :
    (SearchDue W → W.routeStep = (W.updateAdj.searchAll).duoUpdate (updWeight W)) ∧
    (¬ SearchDue W → W.g.gradual = true → W.routeStep = W.duoUpdate (updWeight W)) ∧
    (¬ SearchDue W → W.g.gradual = false → W.routeStep = W) := by
  unfold SearchDue CWorld.routeStep updWeight
  rw [hid]
  refine ⟨fun h => ?_, fun h hg => ?_, fun h hg => ?_⟩
  · by_cases hg : W.g.gradual = true
    · rw [if_pos hg, if_pos h, if_pos hg]; rfl
    · rw [if_neg hg, if_pos h, if_neg hg]
  · rw [if_pos hg, if_neg h, if_pos hg]; rfl
  · rw [if_neg (by simp [hg]), if_neg h]

theorem PrefInv.route {W : CWorld} (p : PrefInv W) (hid : W.g.fl = id) (hw0 : 0 ≤ updWeight W)
    (hw1 : updWeight W ≤ 1) : PrefInv W.routeStep := by
  obtain ⟨a, b, c⟩ := routeStep_eq W hid
  by_cases h : SearchDue W
  · rw [a h]
    have q : PrefInv W.updateAdj.searchAll :=
      p.of_eq rfl rfl rfl rfl (fun l => (updateAdj_ends W l).1) (fun l => (updateAdj_ends W l).2)
    exact q.duo hid hw0 hw1
  · cases hg : W.g.gradual with
    | true => rw [b h hg]; exact p.duo hid hw0 hw1
    | false => rw [c h hg]; exact p

theorem Ev.pref {W W' : CWorld} (e : Ev W W') (hid : W.g.fl = id) (hw0 : 0 ≤ updWeight W)
    (hw1 : updWeight W ≤ 1) (p : PrefInv W) : PrefInv W' := by
  have hs := e.samePar
  have hw := updWeight_fix e.fix
  have hl := CGlob.fix_nLinks e.fix
  have keep : W'.g.pref = W.g.pref → W'.g.active = W.g.active → PrefInv W' := fun h1 h2 =>
    p.of_eq h1 h2 hl hw hs.src hs.dst
  cases e with
  | act a => exact keep (by rw [a.keep.g]) (by rw [a.keep.g])
  | clear => exact keep rfl rfl
  | update l => exact keep rfl rfl
  | home v r hv hh => exact keep (by rw [(r.homeVeh hv hh).2.2.1]) (by rw [(r.homeVeh hv hh).2.2.1])
  | reconcile r => exact keep rfl rfl
  | route r => exact p.route hid hw0 hw1
  | tick r => exact keep rfl rfl

theorem Call.updWeight {W W' : CWorld} (c : Call W W') : updWeight W' = updWeight W := by
  cases c with
  | node r p ints off cap lanes rng => rfl
  | link r src dst a hs hd hl hr => rfl
  | vehicle r dep orig dest prefer ho hd => rfl
  | tmax r t => rfl
  | init r => exact updWeight_fix (initAdj_same W).2.2.1
  | edit r e => unfold Spec.updWeight; rw [edit_g]

theorem Call.pref {W W' : CWorld} (c : Call W W') (p : PrefInv W) : PrefInv W' := by
  have hw := c.updWeight
  cases c with
  | node r q ints off cap lanes rng => exact p.of_eq rfl rfl rfl hw (fun _ => rfl) (fun _ => rfl)
  | link r src dst a hs hd hl hr =>
    have hq : ∀ l, l < W.g.nLinks → (W.addLink src dst a).link l = W.link l := fun l hx => by
      show upd W.link W.g.nLinks _ l = _
      rw [upd_apply, if_neg (Nat.ne_of_lt hx)]
    refine ⟨fun k l h => p.zero k l (le_trans (Nat.le_succ _) h), p.nonneg, fun k n s h i => ?_, p.idle,
      fun hlt k ha => ?_⟩
    · show ∑ l ∈ s, W.g.pref k l ≤ 1
      rw [← Finset.sum_erase s (p.zero k W.g.nLinks le_rfl)]
      have hlt : ∀ l ∈ s.erase W.g.nLinks, l < W.g.nLinks := fun l hx => by
        have h1 : l < W.g.nLinks + 1 := (h l (Finset.mem_of_mem_erase hx)).1
        have h2 : l ≠ W.g.nLinks := Finset.ne_of_mem_erase hx
        omega
      refine p.sum k n _ (fun l hx => ⟨hlt l hx, ?_⟩) (fun a ha b hb e => ?_)
      · rw [← (h l (Finset.mem_of_mem_erase hx)).2]
        rw [hq l (hlt l hx)]
      · refine i (Finset.mem_of_mem_erase ha) (Finset.mem_of_mem_erase hb) ?_
        show _ = _
        beta_reduce
        rw [hq a (hlt a ha), hq b (hlt b hb)]
        exact e
    · obtain ⟨l, h1, h2⟩ := p.act hlt k ha
      exact ⟨l, Nat.lt_succ_of_lt h1, h2⟩
  | vehicle r dep orig dest prefer ho hd => exact p.of_eq rfl rfl rfl hw (fun _ => rfl) (fun _ => rfl)
  | tmax r t =>
    have c : Call W (W.setTMax t) := .tmax W r t
    exact p.of_eq rfl rfl rfl hw (fun l => (c.ends rfl l).1) (fun l => (c.ends rfl l).2)
  | init r =>
    refine ⟨fun k l _ => rfl, fun k l => le_rfl, fun k n s h i => ?_, fun _ _ _ => rfl, fun _ k ha => ?_⟩
    · show ∑ l ∈ s, (0 : ℚ) ≤ 1
      rw [Finset.sum_const_zero]; exact zero_le_one
    · exact absurd (show false = true from ha) Bool.false_ne_true
  | edit r e =>
    have c : Call W (W.edit e) := .edit W r e
    exact p.of_eq (by rw [edit_g]) (by rw [edit_g]) (by rw [edit_g]) hw
      (fun l => (c.ends (by rw [edit_g]) l).1) (fun l => (c.ends (by rw [edit_g]) l).2)

theorem CReach.pref {W : CWorld} (h : CReach W) (hid : W.g.fl = id) (hw0 : 0 ≤ updWeight W)
    (hw1 : updWeight W ≤ 1) : PrefInv W := by
  refine CReach.invariant (P := fun W => W.g.fl = id → 0 ≤ updWeight W → updWeight W ≤ 1 → PrefInv W)
    (fun fl tMax deltaN tau duoTime duoWeight noise hardDet gradual noCyclic adjustCap logMode ttInterval _ _ _ => ?_)
    (fun W W' c ih hid h0 h1 => ?_) (fun W W' e ih hid h0 h1 => ?_) h hid hw0 hw1
  · refine ⟨fun k l _ => rfl, fun k l => le_rfl, fun k n s h i => ?_, fun _ _ _ => rfl, fun _ k ha => ?_⟩
    · show ∑ l ∈ s, (0 : ℚ) ≤ 1
      rw [Finset.sum_const_zero]; exact zero_le_one
    · exact absurd (show false = true from ha) Bool.false_ne_true
  · rw [c.updWeight] at h0 h1
    exact c.pref (ih (c.glob.1.symm.trans hid) h0 h1)
  · rw [updWeight_fix e.fix] at h0 h1
    have hid' : W.g.fl = id := (CGlob.fix_fl e.fix).symm.trans hid
    exact e.pref hid' h0 h1 (ih hid' h0 h1)

/-- What a completed time step does to the tables of route choice. -/
structure RouteStep (W W' : CWorld) : Prop where
  par : SamePar W W'
  fix : W'.g.fix = W.g.fix
  stay : ¬ UpdateDue W → W'.g.pref = W.g.pref
  pref : UpdateDue W → ∀ k l, k < W.g.nNodes → l < W.g.nLinks → W'.g.pref k l =
    (1 - (if W.g.active k then updWeight W else 1)) * W.g.pref k l +
      (if OnPath W' k l then (if W.g.active k then updWeight W else 1) else 0)
  keep : ¬ SearchDue W → W'.g.next = W.g.next ∧ W'.g.dist = W.g.dist ∧ W'.g.adj = W.g.adj
  search : SearchDue W → ∀ i, W'.g.next i = (dijkstra id W.g.nNodes W'.g.adj i).next ∧
    W'.g.dist i = (dijkstra id W.g.nNodes W'.g.adj i).dist
  adj : SearchDue W → ∀ i j w, W'.g.adj i j = some w → 0 < w →
    ∃ l, l < W.g.nLinks ∧ (W.link l).src = i ∧ (W.link l).dst = j

theorem duoUpdate_pref (W : CWorld) (hid : W.g.fl = id) (w : ℚ) {k l : ℕ} (hk : k < W.g.nNodes)
    (hl : l < W.g.nLinks) : (W.duoUpdate w).g.pref k l = (1 - (if W.g.active k then w else 1)) * W.g.pref k l +
      (if OnPath W k l then (if W.g.active k then w else 1) else 0) := by
  have hu : (W.duoUpdate w).g.pref k l = if decide (W.g.next (W.link l).src k = some (W.link l).dst) = true then
      (1 - (if W.g.active k then w else 1)) * W.g.pref k l + (if W.g.active k then w else 1)
      else (1 - (if W.g.active k then w else 1)) * W.g.pref k l := by
    simp only [duoUpdate, hid, id]
    rw [if_pos ⟨hk, hl⟩]
  rw [hu]
  by_cases h : OnPath W k l
  · have h' : W.g.next (W.link l).src k = some (W.link l).dst := h
    rw [if_pos (decide_eq_true h'), if_pos h]
  · have h' : ¬ W.g.next (W.link l).src k = some (W.link l).dst := h
    rw [if_neg (fun e => h' (of_decide_eq_true e)), if_neg h, add_zero]

theorem routeStep_step (W : CWorld) (hid : W.g.fl = id) : RouteStep W W.routeStep := by
  obtain ⟨a, b, c⟩ := routeStep_eq W hid
  have hu : ∀ k l, OnPath W.updateAdj.searchAll k l ↔
      W.updateAdj.searchAll.g.next (W.link l).src k = some (W.link l).dst := fun k l => by
    show W.updateAdj.searchAll.g.next (W.updateAdj.link l).src k = some (W.updateAdj.link l).dst ↔ _
    rw [(updateAdj_ends W l).1, (updateAdj_ends W l).2]
  refine ⟨(routeStep_same W).1, routeStep_fix W, fun h => ?_, fun h k l hk hl => ?_, fun h => ?_, fun h i => ?_,
    fun h i j w hw h0 => ?_⟩
  · rw [c (fun e => h (Or.inr e)) (Bool.eq_false_iff.2 (fun e => h (Or.inl e)))]
  · by_cases hs : SearchDue W
    · rw [a hs]
      exact duoUpdate_pref W.updateAdj.searchAll hid (updWeight W) hk hl
    · rcases h with h | h
      · rw [b hs h]; exact duoUpdate_pref W hid (updWeight W) hk hl
      · exact absurd h hs
  · cases hg : W.g.gradual with
    | true => rw [b h hg]; exact ⟨rfl, rfl, rfl⟩
    | false => rw [c h hg]; exact ⟨rfl, rfl, rfl⟩
  · rw [a h, ← hid]; exact ⟨rfl, rfl⟩
  · rw [a h] at hw
    have hw' : W.updateAdj.g.adj i j = some w := hw
    rw [C78_cost W hid] at hw'
    split at hw'
    · simp at hw'
    · have e := Option.some.inj hw'
      cases hp : parallelLinks W i j with
      | nil => rw [hp] at e; simp at e; exact absurd e (ne_of_lt h0)
      | cons l t =>
        have : l ∈ parallelLinks W i j := by rw [hp]; simp
        simp only [parallelLinks, List.mem_filter, List.mem_range, decide_eq_true_eq] at this
        exact ⟨l, this.1, this.2.1, this.2.2⟩

theorem RouteStep.of_left {W V W' : CWorld} (s : SamePar W V) (hg : V.g.fix = W.g.fix) (ht : V.g.timestep = W.g.timestep)
    (hp : V.g.pref = W.g.pref) (ha : V.g.active = W.g.active) (hn : V.g.next = W.g.next) (hd : V.g.dist = W.g.dist)
    (hj : V.g.adj = W.g.adj) (r : RouteStep V W') : RouteStep W W' := by
  have h1 : V.g.gradual = W.g.gradual := (congrArg CGlob.gradual hg : V.g.fix.gradual = W.g.fix.gradual)
  have h2 : V.g.routeSteps = W.g.routeSteps := (congrArg CGlob.routeSteps hg : V.g.fix.routeSteps = W.g.fix.routeSteps)
  have h3 : SearchDue V ↔ SearchDue W := by unfold SearchDue; rw [h2, ht]
  have h4 : UpdateDue V ↔ UpdateDue W := by unfold UpdateDue; rw [h1, h3]
  obtain ⟨a, b, c, d, e, f, g⟩ := r
  rw [h3] at e f g
  rw [h4] at c d
  rw [hp] at c
  rw [hp, ha, CGlob.fix_nNodes hg, CGlob.fix_nLinks hg, updWeight_fix hg] at d
  rw [hn, hd, hj] at e
  rw [CGlob.fix_nNodes hg] at f
  rw [CGlob.fix_nLinks hg] at g
  refine ⟨s.trans a, b.trans hg, c, d, e, f, fun h i j w hw h0 => ?_⟩
  obtain ⟨l, l1, l2, l3⟩ := g h i j w hw h0
  exact ⟨l, l1, (s.src l).symm.trans l2, (s.dst l).symm.trans l3⟩

theorem stepWith_routes {W W' : CWorld} (r : Rest W) (hid : W.g.fl = id) (σ : Sched) (hσ : σ.run.Nodup)
    (home : List ℕ) (hnd : home.Nodup) (hh : ∀ v ∈ home, v < W.g.nVehs ∧ (W.veh v).state = .home)
    (he : CWorld.stepWith σ home W = (W', none)) : RouteStep W W' := by
  have r0 : Rest W.clearExc := r.congr (core_clearExc W).symm
  obtain ⟨r1, k1⟩ := r0.region σ hσ
  have k := (Keep.clearExc W).trans k1
  unfold CWorld.stepWith at he
  simp only at he
  generalize CWorld.region σ W.clearExc = W1 at *
  have hg : W1.g = W.g := k.g
  split at he
  · simp at he
  · obtain ⟨r2, s2, g2, _⟩ := r1.homePass home hnd (fun v hv => by
      rw [hg, k.home v (hh v hv).2]; exact hh v hv)
    generalize home.foldl (fun (W : CWorld) v => W.vehUpdate v none) W1 = W2 at *
    have hg2 : W2.g = W.g := g2.trans hg
    have s3 : SamePar W2 W2.reconcile := ⟨fun n => by simp only [CWorld.reconcile]; split <;> rfl,
      fun l => by simp only [CWorld.reconcile]; split <;> rfl, fun _ => rfl⟩
    rw [← (Prod.mk.inj he).1]
    refine RouteStep.of_left (k.samePar.trans (s2.trans s3)) ?_ ?_ ?_ ?_ ?_ ?_ ?_ (routeStep_step W2.reconcile ?_)
    · show W2.g.fix = _; rw [hg2]
    all_goals first
      | (show W2.g.timestep = _; rw [hg2]; done)
      | (show W2.g.pref = _; rw [hg2]; done)
      | (show W2.g.active = _; rw [hg2]; done)
      | (show W2.g.next = _; rw [hg2]; done)
      | (show W2.g.dist = _; rw [hg2]; done)
      | (show W2.g.adj = _; rw [hg2]; done)
      | (show W2.g.fl = _; rw [hg2]; exact hid)

/-- One time step of a run. -/
theorem mainLoop_routes {W W' : CWorld} (r : Rest W) (hid : W.g.fl = id) {sched : ℕ → CWorld → Sched}
    (hs : ∀ t W, Rest W → (sched t W).run.Nodup) (ht : W.g.timestep < W.g.totalSteps)
    (he : W.mainLoop sched (W.g.timestep + 1) = (W', none)) : RouteStep W W' := by
  unfold mainLoop at he
  rw [show min (W.g.timestep + 1) W.g.totalSteps - W.g.timestep = 0 + 1 by omega] at he
  unfold CWorld.loopFrom at he
  split at he
  · simp at he
  · rename_i W1 h1
    unfold CWorld.loopFrom at he
    have p := stepWith_routes r hid _ (hs _ _ r) _ (bucket_nodup W _ _)
      (fun v hv => ⟨(mem_bucket.1 hv).1, (mem_bucket.1 hv).2.1⟩) h1
    rw [← (Prod.mk.inj he).1]
    obtain ⟨a, b, c, d, e, f, g⟩ := p
    exact ⟨⟨a.node, a.link, a.veh⟩, b, c, d, e, f, g⟩

end UX.Cpp
