import Verif.Model.Tables
import Verif.Props.Taxi
import Verif.Proofs.Tables
import Verif.Props.Kinematics
import Mathlib.Data.Finset.Card
import Mathlib.Algebra.Order.BigOperators.Group.List

/-!
# Statistics of taxi trips (C65)
-/

namespace UX
open World

/-! ## Nobody is picked up before the requested time -/

/-- Histories in which taxis are assigned only by the handlers that come with the package. -/
inductive Handled : World → Prop
  | new {cfg tmax rng} : Handled (World.new cfg tmax rng)
  | next {W W'} : Handled W → ApiStep W W' → (∀ r, W.H.taxi r = none → W'.H.taxi r = none) → Handled W'
  | random {W W' rnd} : Handled W → W.assignRandom rnd = .ok W' → Handled W'
  | nearest {W W' rad2} : Handled W → W.assignNearest rad2 = .ok W' → Handled W'

theorem Served.handled {W : World} (h : Served W) : Handled W := by
  induction h with
  | new => exact .new
  | next _ h1 h2 _ ih => exact .next ih h1 h2
  | random _ h ih => exact .random ih h
  | nearest _ h ih => exact .nearest ih h

/-- Requests are assigned and passengers picked up when they are due. -/
structure DueInv (W : World) : Prop where
  due : ∀ r v, W.H.taxi r = some v → W.H.departTime r ≤ W.time
  get : ∀ r t, W.H.getTaxiTime r = some t → W.H.departTime r ≤ t

namespace DueInv

theorem same {W W' : World} (h : DueInv W) (hs : W'.H = W.H) (ht : W.time ≤ W'.time) : DueInv W' := by
  constructor
  · rw [hs]; exact fun r v hr => (h.due r v hr).trans ht
  · rw [hs]; exact h.get

theorem update {v : VehId} {W W' : World} (hu : UpdTaxi v W W') (hI : TaxiInv W) (h : DueInv W) :
    DueInv W' ∧ W'.time = W.time := by
  rcases hu.cases with hs | ⟨W1, W2, W3, a, s1, -, -, h2, s2, ha, hc, he, h3⟩
  · exact ⟨h.same hs.H hs.time.ge, hs.time⟩
  · have h1 := hI.same s1
    have g1 := h.same s1.H s1.time.ge
    have h2' : TaxiInv W2 ∧ W2.V.nodeEvent v (W1.L.endN a) = none ∧ DueInv W2 ∧ W2.time = W1.time := by
      rcases h2 with ⟨h2, rfl⟩ | ⟨e, h2, h4⟩
      · exact ⟨h1, h2, g1, rfl⟩
      · have ht : W2.time = W1.time := by
          obtain ⟨_, _, _, _, _, _, _, rfl, -⟩ := runEvent_soft h4
          rfl
        refine ⟨(h1.runEvent h2 h4).1, (h1.runEvent h2 h4).2.1, ?_, ht⟩
        rcases h1.runEvent_H h2 h4 with ⟨r, hev, hH, hn⟩ | ⟨r, -, hH, hn, hn2⟩
        · subst hev
          have htx := (h1.on _ _ _ h2).1
          constructor
          · rw [hH, ht]; exact g1.due
          · rw [hH]; dsimp only
            intro s t hs
            by_cases e : s = r
            · subst e; rw [upd_same] at hs; cases hs; exact g1.due s _ htx
            · rw [upd_ne _ _ e] at hs; exact g1.get s t hs
        · constructor
          · rw [hH, ht]; exact g1.due
          · rw [hH]; exact g1.get
    have h4 := (h2'.1.same s2).atLinkEnd hc ha (by rw [he, s2.ev]; exact h2'.2.1) h3
    have ht : W'.time = W3.time := (atLinkEnd_star hc ha h3).static.time
    refine ⟨h2'.2.2.1.same (h4.2.1.trans s2.H) ?_, ?_⟩
    · rw [ht, s2.time]
    · rw [ht, s2.time, h2'.2.2.2, s1.time]

theorem api {W W' : World} (h : DueInv W) (hr : Reachable (fun W => FlOK W.cfg.fl ∧ 0 ≤ W.cfg.deltat) W)
    (hs : ApiStep W W') (hno : ∀ r, W.H.taxi r = none → W'.H.taxi r = none) : DueInv W' := by
  obtain ⟨i1, i2, i3⟩ := hr.stamps (fun _ h => h)
  have hI := hr.taxi
  rcases hs.taxi with ⟨s, f, hT, c, t⟩ | ⟨s, f, f', hT, c, t⟩ | ⟨a, ha⟩ | ⟨v, d, k, hv, ha⟩ | ⟨o, d, t, ha⟩ | ⟨v, r, hv, ha⟩ | ⟨f, hT, ha⟩
  · refine h.same s.H ?_
    rcases t with t | ⟨f', t⟩
    · exact t.ge
    · rw [t]; exact i2
  · refine h.same s.H ?_
    rw [t, (i3 f).1]
  · obtain ⟨o, d, dep, pref, cache, lp, la, nm, -, -, -, -, -, -, -, -, rfl⟩ := addVehicle_ok ha
    exact h.same rfl le_rfl
  · obtain ⟨_, dd, dl, pref, rfl⟩ := addDest_ok ha
    exact h.same rfl le_rfl
  · unfold World.addTripRequest at ha
    obtain ⟨o', _, ha⟩ := bind_ok.mp ha
    obtain ⟨d', _, ha⟩ := bind_ok.mp ha
    simp only [pure_ok] at ha
    subst ha
    constructor
    · intro r v hr
      dsimp only at hr ⊢
      rw [upd_apply] at hr ⊢
      split at hr
      · cases hr
      · rename_i e; rw [if_neg e]; exact h.due r v hr
    · intro r v hr
      dsimp only at hr ⊢
      rw [upd_apply] at hr ⊢
      split at hr
      · cases hr
      · rename_i e; rw [if_neg e]; exact h.get r v hr
  · exfalso
    have e := assignTaxi_effect ha
    have hn := (hI.pend r e.1).2
    have := hno r hn
    unfold World.assignTaxi at ha
    split at ha
    · simp at ha
    · obtain ⟨W1, h1, ha⟩ := bind_ok.mp ha
      simp only [pure_ok] at ha
      subst ha
      simp [upd_same] at this
  · obtain ⟨W1, h1, rfl⟩ := tick_ok ha
    obtain ⟨W6, h6, hs6⟩ := step_taxi (P := fun X => TaxiInv X ∧ DueInv X ∧ X.time = W.time)
      (hr.inv.core f)
      (fun _ _ hs h => ⟨h.1.same hs, h.2.1.same hs.H hs.time.ge, hs.time.trans h.2.2⟩)
      (fun _ _ _ hu h => ⟨h.1.update hu, (h.2.1.update hu h.1).1, (h.2.1.update hu h.1).2.trans h.2.2⟩)
      h1 ⟨hI, h, rfl⟩
    obtain ⟨b1, b2, b3, b4, b5⟩ := tick_frame hr.inv f ha
    have n1 : W1.now = W.now := by
      have b1' : W1.T + 1 = W.T + 1 := b1
      have b4' : W1.cfg = W.cfg := b4
      unfold World.now World.fl World.dt
      rw [b4', Nat.add_right_cancel b1']
    have t1 : W1.time = W.now := by
      rw [← n1, hs6]; rfl
    have : DueInv W1 := by
      rw [hs6]
      refine h6.2.1.same rfl ?_
      show W6.time ≤ W6.now
      have : W6.now = W.now := by
        rw [hs6] at t1; exact t1
      rw [this, h6.2.2]; exact i2
    exact ⟨this.due, this.get⟩

end DueInv

theorem Assigns.due {as} {W W' : World} (h : Assigns as W W') (hd : DueInv W) : DueInv W' := by
  induction h with
  | nil => exact hd
  | @cons r v as W W1 W' hr hdue hv ha _ ih =>
    obtain ⟨a1, a2, a3, a4, -⟩ := assignTaxi_effect ha
    refine ih ⟨fun s u hs => ?_, ?_⟩
    · rw [a3, a4]
      by_cases e : s = r
      · subst e; exact hdue
      · refine hd.due s u ?_
        unfold World.assignTaxi at ha
        split at ha
        · simp at ha
        · obtain ⟨W1, h1, ha⟩ := bind_ok.mp ha
          simp only [pure_ok] at ha
          obtain ⟨_, dd, dl, pref, rfl⟩ := addDest_ok h1
          subst ha
          exact (upd_ne _ _ e).symm.trans hs
    · unfold World.assignTaxi at ha
      split at ha
      · simp at ha
      · obtain ⟨W1, h1, ha⟩ := bind_ok.mp ha
        simp only [pure_ok] at ha
        obtain ⟨_, dd, dl, pref, rfl⟩ := addDest_ok h1
        subst ha
        exact hd.get

theorem Assigns.cfg {as} {W W' : World} (h : Assigns as W W') (hr : Reachable Any W) : W'.cfg = W.cfg := by
  induction h with
  | nil => rfl
  | cons _ _ hv ha _ ih =>
    have hs := ApiStep.assignTaxi hv.1 ha
    exact (ih (.next hr hs trivial)).trans (hs.cfg hr.inv)

theorem Assigns.reach {OK : World → Prop} (hOK : ∀ W W' : World, W'.cfg = W.cfg → OK W → OK W') {as} {W W' : World}
    (h : Assigns as W W') (hr : Reachable OK W) : Reachable OK W' := by
  induction h with
  | nil => exact hr
  | cons _ _ hv ha _ ih =>
    have hs := ApiStep.assignTaxi hv.1 ha
    exact ih (.next hr hs (hOK _ _ (hs.cfg hr.inv) hr.ok))

theorem Handled.reachable {W : World} (h : Handled W) : Reachable Any W := by
  induction h with
  | new => exact .new trivial
  | next _ hs _ ih => exact .next ih hs trivial
  | random _ ha ih => obtain ⟨as, b1, -⟩ := assignRandom_spec ih.taxi ha; exact b1.reachable ih
  | nearest _ ha ih => obtain ⟨as, b1, -⟩ := assignNearest_spec ih.taxi ha; exact b1.reachable ih

theorem Handled.inv {W : World} (h : Handled W) (hok : FlOK W.cfg.fl ∧ 0 ≤ W.cfg.deltat) :
    Reachable (fun W => FlOK W.cfg.fl ∧ 0 ≤ W.cfg.deltat) W ∧ DueInv W := by
  induction h with
  | new => exact ⟨.new hok, ⟨fun _ _ h => (by cases h), fun _ _ h => (by cases h)⟩⟩
  | next h hs hno ih =>
    have ih := ih (by rw [← hs.cfg h.reachable.inv]; exact hok)
    exact ⟨.next ih.1 hs hok, ih.2.api ih.1 hs hno⟩
  | random h ha ih =>
    obtain ⟨as, b1, -⟩ := assignRandom_spec h.reachable.taxi ha
    have ih := ih (by rw [← b1.cfg h.reachable]; exact hok)
    exact ⟨b1.reach (fun _ _ e h => by rw [e]; exact h) ih.1, b1.due ih.2⟩
  | nearest h ha ih =>
    obtain ⟨as, b1, -⟩ := assignNearest_spec h.reachable.taxi ha
    have ih := ih (by rw [← b1.cfg h.reachable]; exact hok)
    exact ⟨b1.reach (fun _ _ e h => by rw [e]; exact h) ih.1, b1.due ih.2⟩

/-! ## C65 -/

/-- The requests, taxis satisfying `p`, counted. -/
def countIf (n : ℕ) (p : ℕ → Prop) [DecidablePred p] : ℕ := ((Finset.range n).filter p).card

theorem countIf_filter (n : ℕ) (p : ℕ → Prop) [DecidablePred p] (q : ℕ → Bool) (h : ∀ k, q k = true ↔ p k) :
    ((List.range n).filter q).length = countIf n p := by
  unfold countIf
  rw [← List.toFinset_card_of_nodup (List.nodup_range.filter q)]
  congr 1
  ext k
  simp [h]

/-- C65: `compute_stats` never raises and counts (in vehicles) the requests, the completed requests and the taxis.
The lists contain one entry for every completed (or picked up) request: arrival minus pick-up, arrival minus request
time, and pick-up minus request time. -/
theorem C65_stats {W : World} (h : Reachable Any W) : ∃ S, W.taxiStats = .ok S ∧
    S.total = W.dn * W.H.nReq ∧ S.completed = W.dn * countIf W.H.nReq (fun r => W.H.arrivalTime r ≠ none) ∧
    S.taxis = W.dn * countIf W.nVeh (fun v => W.V.mode v = .taxi) ∧ S.completed ≤ S.total ∧
    ∃ done got : List ReqId, done.Pairwise (· < ·) ∧ got.Pairwise (· < ·) ∧
      (∀ r, r ∈ done ↔ r < W.H.nReq ∧ W.H.arrivalTime r ≠ none) ∧
      (∀ r, r ∈ got ↔ r < W.H.nReq ∧ W.H.getTaxiTime r ≠ none) ∧
      List.Forall₂ (fun r q => ∃ a g, W.H.arrivalTime r = some a ∧ W.H.getTaxiTime r = some g ∧ q = a - g)
        done S.invehicle ∧
      List.Forall₂ (fun r q => ∃ a, W.H.arrivalTime r = some a ∧ q = a - W.H.departTime r) done S.travel ∧
      List.Forall₂ (fun r q => ∃ g, W.H.getTaxiTime r = some g ∧ q = g - W.H.departTime r) got S.waiting := by
  have hI := h.taxi
  have ha : ∀ r ∈ (List.range W.H.nReq).filter (fun r => (W.H.arrivalTime r).isSome),
      ∃ a g, W.H.arrivalTime r = some a ∧ W.H.getTaxiTime r = some g := by
    intro r hr
    have h1 : (W.H.arrivalTime r).isSome := (List.mem_filter.1 hr).2
    obtain ⟨a, ha⟩ := Option.isSome_iff_exists.1 h1
    have h2 := hI.arr r (by rw [ha]; simp)
    obtain ⟨g, hg⟩ := Option.ne_none_iff_exists'.1 h2
    exact ⟨a, g, ha, hg⟩
  have key : W.taxiStats = .ok
      { total := W.H.nReq * W.dn
        completed := ((List.range W.H.nReq).filter fun r => (W.H.arrivalTime r).isSome).length * W.dn
        waiting := (List.range W.H.nReq).filterMap fun r => (W.H.getTaxiTime r).map (· - W.H.departTime r)
        travel := ((List.range W.H.nReq).filter fun r => (W.H.arrivalTime r).isSome).map fun r =>
          (W.H.arrivalTime r).getD 0 - W.H.departTime r
        invehicle := ((List.range W.H.nReq).filter fun r => (W.H.arrivalTime r).isSome).map fun r =>
          (W.H.arrivalTime r).getD 0 - (W.H.getTaxiTime r).getD 0
        taxis := ((List.range W.nVeh).filter fun v => decide (W.V.mode v = .taxi)).length * W.dn } := by
    unfold taxiStats
    dsimp only
    rw [mapM_map (g := fun r => (W.H.arrivalTime r).getD 0 - (W.H.getTaxiTime r).getD 0), ok_bind,
      mapM_map (g := fun r => (W.H.arrivalTime r).getD 0 - W.H.departTime r)]
    · rfl
    · intro r hr
      obtain ⟨a, g, h1, h2⟩ := ha r hr
      simp only [h1]; rfl
    · intro r hr
      obtain ⟨a, g, h1, h2⟩ := ha r hr
      simp only [h1, h2]; rfl
  refine ⟨_, key, Nat.mul_comm _ _, ?_, ?_, ?_,
    (List.range W.H.nReq).filter fun r => (W.H.arrivalTime r).isSome,
    (List.range W.H.nReq).filter fun r => (W.H.getTaxiTime r).isSome,
    List.pairwise_lt_range.filter _, List.pairwise_lt_range.filter _, fun r => ?_, fun r => ?_, ?_, ?_, ?_⟩
  · show _ * _ = _
    rw [Nat.mul_comm]
    congr 1
    exact countIf_filter _ _ _ fun k => by simp [Option.isSome_iff_ne_none]
  · show _ * _ = _
    rw [Nat.mul_comm]
    exact congrArg _ (countIf_filter _ _ _ fun k => by simp)
  · refine Nat.mul_le_mul_right _ ?_
    exact (List.length_filter_le _ _).trans List.length_range.le
  · simp [Option.isSome_iff_ne_none]
  · simp [Option.isSome_iff_ne_none]
  · rw [List.forall₂_map_right_iff, List.forall₂_same]
    intro r hr
    obtain ⟨a, g, h1, h2⟩ := ha r hr
    exact ⟨a, g, h1, h2, by simp [h1, h2]⟩
  · rw [List.forall₂_map_right_iff, List.forall₂_same]
    intro r hr
    obtain ⟨a, g, h1, h2⟩ := ha r hr
    exact ⟨a, h1, by simp [h1]⟩
  · dsimp only
    generalize List.range W.H.nReq = rs
    induction rs with
    | nil => exact .nil
    | cons r rs ih =>
      cases e : W.H.getTaxiTime r with
      | none => simpa [List.filter_cons, e] using ih
      | some g =>
        simp only [List.filter_cons, List.filterMap_cons, e, Option.isSome_some, if_true, Option.map_some]
        exact .cons ⟨g, e, rfl⟩ ih

theorem meanOr0_spec {xs : List ℚ} : (xs = [] → meanOr0 xs = 0) ∧
    (xs ≠ [] → meanOr0 xs * xs.length = xs.sum) := by
  unfold meanOr0
  refine ⟨fun h => by simp [h], fun h => ?_⟩
  have hl : 0 < xs.length := List.length_pos_of_ne_nil h
  rw [if_pos hl, div_mul_cancel₀]
  exact_mod_cast hl.ne'

theorem meanOr0_nonneg {xs : List ℚ} (h : ∀ q ∈ xs, 0 ≤ q) : 0 ≤ meanOr0 xs := by
  unfold meanOr0
  split
  · exact div_nonneg (List.sum_nonneg h) (Nat.cast_nonneg _)
  · exact le_rfl

theorem forall₂_right {α β : Type} {R : α → β → Prop} {p : β → Prop} {l : List α} {m : List β}
    (h : List.Forall₂ R l m) (hp : ∀ a b, R a b → p b) : ∀ b ∈ m, p b := by
  induction h with
  | nil => simp
  | cons h _ ih => intro b hb; rcases List.mem_cons.1 hb with rfl | hb; exacts [hp _ _ h, ih b hb]

/-- C65: `basic_to_pandas` gives the numbers and the means; a mean over nothing is 0. -/
theorem C65_basic {W : World} (h : Reachable Any W) : ∃ S B, W.taxiStats = .ok S ∧ W.taxiBasic = .ok B ∧
    B.total = S.total ∧ B.completed = S.completed ∧
    (∀ p ∈ [(B.waiting, S.waiting), (B.invehicle, S.invehicle), (B.travel, S.travel)],
      (p.2 = [] → p.1 = 0) ∧ (p.2 ≠ [] → p.1 * p.2.length = p.2.sum)) := by
  obtain ⟨S, hS, -⟩ := C65_stats h
  refine ⟨S, _, hS, by unfold taxiBasic; rw [hS, ok_bind]; rfl, rfl, rfl, fun p hp => ?_⟩
  simp only [List.mem_cons, List.not_mem_nil, or_false] at hp
  rcases hp with rfl | rfl | rfl <;> exact meanOr0_spec

/-- C65: nobody arrives before being picked up. If only the handlers of the package assign taxis, nobody is picked
up before the requested time either, and no travel time is shorter than the time in the taxi; so all means are
not negative. -/
theorem C65_times {W : World} (h : Reachable (fun W => FlOK W.cfg.fl ∧ 0 ≤ W.cfg.deltat) W) {S}
    (hS : W.taxiStats = .ok S) :
    (∀ q ∈ S.invehicle, 0 ≤ q) ∧
    (Handled W → (∀ q ∈ S.waiting, 0 ≤ q) ∧ List.Forall₂ (· ≤ ·) S.invehicle S.travel ∧
      ∀ B, W.taxiBasic = .ok B → 0 ≤ B.waiting ∧ 0 ≤ B.invehicle ∧ B.invehicle ≤ B.travel) := by
  have hA : Reachable Any W := h.mono fun _ _ => trivial
  obtain ⟨S', hS', -, -, -, -, done, got, -, -, -, -, h1, h2, h3⟩ := C65_stats hA
  obtain rfl : S' = S := by rw [hS] at hS'; cases hS'; rfl
  have hst := (h.stamps (fun _ h => h)).1
  have hin : ∀ q ∈ S'.invehicle, 0 ≤ q := by
    refine forall₂_right h1 ?_
    rintro r q ⟨a, g, ha, hg, rfl⟩
    obtain ⟨t0, e, hle, -⟩ := hst.arr r a ha
    rw [hg] at e; cases e
    linarith
  refine ⟨hin, fun hH => ?_⟩
  have hd := (hH.inv h.ok).2
  have hw : ∀ q ∈ S'.waiting, 0 ≤ q := by
    refine forall₂_right h3 ?_
    rintro r q ⟨g, hg, rfl⟩
    have := hd.get r g hg
    linarith
  have hle : List.Forall₂ (· ≤ ·) S'.invehicle S'.travel := by
    clear hS hS' hin h3 hw
    revert h1 h2
    generalize S'.invehicle = xs
    generalize S'.travel = ys
    intro h1 h2
    induction h1 generalizing ys with
    | nil => cases h2; exact .nil
    | cons e _ ih =>
      cases h2 with
      | cons e2 h2 =>
        refine .cons ?_ (ih _ h2)
        obtain ⟨a, g, ha, hg, rfl⟩ := e
        obtain ⟨a', ha', rfl⟩ := e2
        rw [ha] at ha'; cases ha'
        have := hd.get _ g hg
        linarith
  refine ⟨hw, hle, fun B hB => ?_⟩
  unfold taxiBasic at hB
  rw [hS, ok_bind] at hB
  cases hB
  refine ⟨meanOr0_nonneg hw, meanOr0_nonneg hin, ?_⟩
  have hlen := hle.length_eq
  have hsum : S'.invehicle.sum ≤ S'.travel.sum := hle.sum_le_sum
  show meanOr0 _ ≤ meanOr0 _
  unfold meanOr0
  rw [← hlen]
  split
  · exact div_le_div_of_nonneg_right hsum (Nat.cast_nonneg _)
  · exact le_rfl

/-- C65: every request has one row in `trips_to_pandas`, in the order of the calls, with its times and its taxi. A
travel time is given if and only if the passenger has arrived, and then also a waiting time. -/
theorem C65_trips {W : World} (h : Reachable Any W) : ∃ rows, W.taxiTrips = .ok rows ∧ rows.length = W.H.nReq ∧
    ∀ r (row : TaxiTrip), rows[r]? = some row →
      row.orig = W.N.name (W.H.orig r) ∧ row.dest = W.N.name (W.H.dest r) ∧ row.depart = W.H.departTime r ∧
      row.getTaxi = W.H.getTaxiTime r ∧ row.arrival = W.H.arrivalTime r ∧
      (∀ t, row.travel = some t ↔ row.arrival = some (row.depart + t)) ∧
      (∀ t, row.waiting = some t ↔ row.getTaxi = some (row.depart + t)) ∧
      (row.travel ≠ none → row.waiting ≠ none) ∧ (row.waiting ≠ none → row.taxi ≠ none) ∧
      (∀ nm, row.taxi = some nm ↔ ∃ v, W.H.taxi r = some v ∧ W.V.name v = nm) := by
  obtain ⟨S, hS, -⟩ := C65_stats h
  have hI := h.taxi
  refine ⟨_, by unfold taxiTrips; rw [hS, ok_bind]; rfl, by simp, fun r row hr => ?_⟩
  rw [List.getElem?_map] at hr
  obtain ⟨k, hk, rfl⟩ := Option.map_eq_some_iff.1 hr
  obtain rfl : k = r := by
    rw [List.getElem?_range (by
      by_contra hn
      rw [List.getElem?_eq_none (by simpa using hn)] at hk
      cases hk)] at hk
    cases hk; rfl
  refine ⟨rfl, rfl, rfl, rfl, rfl, fun t => ?_, fun t => ?_, ?_, ?_, fun nm => ?_⟩
  · dsimp only
    cases W.H.arrivalTime k with
    | none => simp
    | some a =>
      simp only [Option.map_some, Option.some.injEq]
      constructor <;> intro h <;> linarith
  · dsimp only
    cases W.H.getTaxiTime k with
    | none => simp
    | some a =>
      simp only [Option.map_some, Option.some.injEq]
      constructor <;> intro h <;> linarith
  · dsimp only
    simp only [ne_eq, Option.map_eq_none_iff]
    exact hI.arr k
  · dsimp only
    simp only [ne_eq, Option.map_eq_none_iff]
    exact hI.got k
  · dsimp only
    rw [Option.map_eq_some_iff]

/-- C65: `print_stats` fails exactly if there is no taxi; otherwise the first ratio lies between 0 and 1. -/
theorem C65_print {W : World} (h : Reachable Any W) (hdn : 0 < W.dn) :
    ((∀ v, v < W.nVeh → W.V.mode v ≠ .taxi) → W.taxiRatios = .error .zeroDivision) ∧
    ((∃ v, v < W.nVeh ∧ W.V.mode v = .taxi) → ∃ a b, W.taxiRatios = .ok (a, b) ∧ 0 ≤ a ∧ a ≤ 1 ∧ 0 ≤ b) := by
  obtain ⟨S, hS, h1, h2, h3, h4, -⟩ := C65_stats h
  have hc : S.taxis = 0 ↔ ∀ v, v < W.nVeh → W.V.mode v ≠ .taxi := by
    rw [h3, Nat.mul_eq_zero]
    unfold countIf
    rw [Finset.card_eq_zero, Finset.filter_eq_empty_iff]
    simp only [Finset.mem_range]
    constructor
    · rintro (h | h)
      · omega
      · exact h
    · exact fun h => .inr h
  constructor
  · intro hn
    unfold taxiRatios
    rw [hS, ok_bind, if_pos (hc.2 hn)]; rfl
  · rintro ⟨v, hv, hm⟩
    have hne : S.taxis ≠ 0 := fun e => hc.1 e v hv hm
    refine ⟨_, _, by unfold taxiRatios; rw [hS, ok_bind, if_neg hne]; rfl, ?_, ?_, ?_⟩
    · split
      · exact div_nonneg (Nat.cast_nonneg _) (Nat.cast_nonneg _)
      · exact le_rfl
    · split
      · rename_i hp
        rw [div_le_one (by exact_mod_cast hp)]; exact_mod_cast h4
      · exact zero_le_one
    · exact div_nonneg (Nat.cast_nonneg _) (Nat.cast_nonneg _)

/-! ## Concrete cases -/

set_option maxRecDepth 100000 in
/-- The hypotheses of the C65 theorems are met by `serveDemo`, after which one of two requests is completed. -/
example : ∃ W S, Handled W ∧ Reachable (fun W => FlOK W.cfg.fl ∧ 0 ≤ W.cfg.deltat) W ∧ W.taxiStats = .ok S ∧
    0 < W.dn ∧ S.total = 10 ∧ S.completed = 5 ∧ S.taxis = 5 ∧ S.waiting = [5, 55] ∧ S.invehicle = [10] ∧
    S.travel = [15] := by
  have h : obs (runServed demoCfg serveDemo) (fun W => obs W.taxiStats (fun S => decide (
    0 < W.dn ∧ S.total = 10 ∧ S.completed = 5 ∧ S.taxis = 5 ∧ S.waiting = [5, 55] ∧ S.invehicle = [10] ∧
    S.travel = [15]))) = true := by decide +kernel
  obtain ⟨W, hW, h⟩ := obs_ok h
  obtain ⟨S, hS, h⟩ := obs_ok h
  have hH := (runServed_served hW).handled
  have hc : W.cfg = demoCfg := by
    refine (foldlM_inv (P := fun W => Reachable Any W ∧ W.cfg = demoCfg) (fun W c W' _ hr hc => ?_)
      ⟨.new trivial, rfl⟩ hW).2
    cases c with
    | none =>
      obtain ⟨as, b1, -⟩ := assignRandom_spec hr.1.taxi hc
      exact ⟨b1.reachable hr.1, (b1.cfg hr.1).trans hr.2⟩
    | some c =>
      obtain ⟨W1, h1, h2⟩ := bind_ok.mp hc
      split at h2
      · rw [pure_ok] at h2
        subst h2
        exact ⟨.next hr.1 (Cmd.run_api h1) trivial, ((Cmd.run_api h1).cfg hr.1.inv).trans hr.2⟩
      · cases h2
  exact ⟨W, S, hH, (hH.inv (by rw [hc]; exact ⟨flOK_id, by decide +kernel⟩)).1, hS, of_decide_eq_true h⟩

/-- A taxi is assigned to a request that is due much later. -/
def earlyDemo : List Cmd :=
  [.node { name := "a" }, .node { name := "b" },
   .link { startN := .obj 0, endN := .obj 1, length := 200 },
   .link { startN := .obj 1, endN := .obj 0, length := 200 },
   .veh { orig := .obj 0, dest := none, dep := .step 0, mode := .taxi },
   .fin (some 300), .request (.obj 1) (.obj 0) 200, .tick, .tick, .assign 0 0] ++ List.replicate 9 .tick

set_option maxRecDepth 100000 in
/-- C65 is false of the code in two ways. `assign_taxi` does not look at the time of the request, so a passenger can be
picked up 195 s before asking for a taxi and arrive 185 s before; the means are negative. And without a taxi
`print_stats` divides by zero. -/
theorem C65_false : (∃ W S, Reachable Any W ∧ W.taxiStats = .ok S ∧ S.waiting = [-195] ∧ S.travel = [-185]) ∧
    ∃ W : World, Reachable Any W ∧ W.taxiRatios = .error .zeroDivision := by
  constructor
  · have h : obs (runCmds demoCfg (fun _ => 0) earlyDemo) (fun W => obs W.taxiStats (fun S => decide (
      S.waiting = [-195] ∧ S.travel = [-185]))) = true := by decide +kernel
    obtain ⟨W, hW, h⟩ := obs_ok h
    obtain ⟨S, hS, h⟩ := obs_ok h
    exact ⟨W, S, runCmds_reachable hW, hS, of_decide_eq_true h⟩
  · refine ⟨World.new demoCfg none fun _ => 0, .new trivial, ?_⟩
    exact (C65_print (.new trivial) (by decide +kernel)).1 fun v hv => absurd hv (Nat.not_lt_zero v)

end UX
