import Verif.Model.OdTable
import Verif.Props.Stats
import Verif.Spec.OdTable

/-! Sums over the rows of the table of origins and destinations. -/

namespace UX
open World

theorem scaleTop_add (n : ℕ) (x y : WithTop ℚ) : scaleTop n (x + y) = scaleTop n x + scaleTop n y := by
  cases x with
  | top => simp [scaleTop]
  | coe x =>
    cases y with
    | top => simp [scaleTop]
    | coe y =>
      unfold scaleTop
      rw [← WithTop.coe_add, WithTop.map_coe, WithTop.map_coe, WithTop.map_coe, mul_add, WithTop.coe_add]

theorem scaleTop_zero (n : ℕ) : scaleTop n 0 = 0 := by
  show WithTop.map _ ((0 : ℚ) : WithTop ℚ) = 0
  rw [WithTop.map_coe, mul_zero]; rfl

theorem scaleTop_sum (n : ℕ) (l : List (WithTop ℚ)) : (l.map (scaleTop n)).sum = scaleTop n l.sum := by
  induction l with
  | nil => exact (scaleTop_zero n).symm
  | cons a l ih => rw [List.map_cons, List.sum_cons, List.sum_cons, ih, scaleTop_add]

theorem scaleTop_len (n m : ℕ) (x : WithTop ℚ) : scaleTop (n * (m + 1)) x = ((List.range (m + 1)).map fun _ => scaleTop n x).sum := by
  cases x with
  | top => rw [List.range_succ_eq_map]; simp [scaleTop]
  | coe x =>
    have : ∀ l : List ℕ, (l.map fun _ => scaleTop n (x : WithTop ℚ)).sum = ((n * l.length * x : ℚ) : WithTop ℚ) := by
      intro l
      induction l with
      | nil => simp
      | cons a l ih =>
        rw [List.map_cons, List.sum_cons, ih]
        unfold scaleTop
        rw [WithTop.map_coe, ← WithTop.coe_add]
        congr 1
        rw [List.length_cons]; push_cast; ring
    rw [this]
    unfold scaleTop
    rw [WithTop.map_coe]
    congr 1
    simp

/-- A group of vehicles with a common value. -/
theorem scaleTop_group (n : ℕ) (x : WithTop ℚ) (vs : List VehId) (hne : vs ≠ []) :
    scaleTop (n * vs.length) x = (vs.map fun _ => scaleTop n x).sum := by
  obtain ⟨m, hm⟩ : ∃ m, vs.length = m + 1 := ⟨vs.length - 1, by have := List.length_pos_iff.2 hne; omega⟩
  rw [hm, scaleTop_len, ← hm]
  congr 1
  rw [List.map_const', List.map_const', List.length_range]

namespace OdSpec

variable {W : World} {vs : List VehId} {S : OdStats} (hS : OdSpec W vs S)
include hS

theorem sum_keys {M : Type} [AddCommMonoid M] (od : VehId → Option (NodeId × NodeId))
    (hod : ∀ v k, od v = some k → W.odOf v = some k) (g : VehId → M) (P : NodeId × NodeId → Bool) :
    ((S.trips.keys.filter P).map fun k => ((vs.filter fun v => decide (od v = some k)).map g).sum).sum =
      ((vs.filter fun v => (od v).any P).map g).sum := by
  rw [sum_group od g _ (hS.nodup.filter _)]
  congr 2
  refine List.filter_congr fun v hv => ?_
  rw [Bool.eq_iff_iff, decide_eq_true_eq, Option.any_eq_true]
  constructor
  · rintro ⟨k, hk, e⟩; exact ⟨k, e, (List.mem_filter.1 hk).2⟩
  · rintro ⟨k, e, hk⟩; exact ⟨k, List.mem_filter.2 ⟨(hS.mem k).2 ⟨v, hv, hod v k e⟩, hk⟩, e⟩

theorem sum_len (od : VehId → Option (NodeId × NodeId)) (hod : ∀ v k, od v = some k → W.odOf v = some k)
    (P : NodeId × NodeId → Bool) :
    ((S.trips.keys.filter P).map fun k => W.dn * (vs.filter fun v => decide (od v = some k)).length).sum =
      W.dn * (vs.filter fun v => (od v).any P).length := by
  rw [List.sum_map_mul_left]
  congr 1
  have := hS.sum_keys od hod (fun _ => 1) P
  simpa using this

theorem row_time (k : NodeId × NodeId) :
    (S.comp.val k : ℚ) * (if k ∈ S.tt.keys then average (S.tt.val k) else 0) =
      W.dn * ((vs.filter fun v => decide (W.odDone v = some k)).map W.V.travelTime).sum := by
  rw [hS.comp, hS.tt]
  by_cases hk : k ∈ S.tt.keys
  · rw [if_pos hk]
    have hne : ((vs.filter fun v => decide (W.odDone v = some k)).length : ℚ) ≠ 0 := by
      obtain ⟨v, hv, he⟩ := (hS.ttmem k).1 hk
      have : v ∈ vs.filter fun v => decide (W.odDone v = some k) := by simp [hv, he]
      exact Nat.cast_ne_zero.2 (by rw [Ne, List.length_eq_zero_iff]; exact List.ne_nil_of_mem this)
    unfold average
    rw [List.length_map]
    push_cast
    field_simp
  · rw [if_neg hk]
    have : (vs.filter fun v => decide (W.odDone v = some k)) = [] := by
      rw [List.filter_eq_nil_iff]
      intro v hv he
      exact hk ((hS.ttmem k).2 ⟨v, hv, by simpa using he⟩)
    rw [this]; simp

theorem row_dist (k : NodeId × NodeId) :
    (S.trips.val k : ℚ) * (if k ∈ S.tt.keys then average (S.dist.val k) else 0) =
      W.dn * ((vs.filter fun v => decide (W.odOf v = some k)).map
        fun v => if ∃ u ∈ vs, W.odDone u = W.odOf v then W.V.dist v else 0).sum := by
  have h2 : ((vs.filter fun v => decide (W.odOf v = some k)).map
        fun v => if ∃ u ∈ vs, W.odDone u = W.odOf v then W.V.dist v else 0) =
      (vs.filter fun v => decide (W.odOf v = some k)).map
        fun v => if k ∈ S.tt.keys then W.V.dist v else 0 := by
    refine List.map_congr_left fun v hv => ?_
    have hv' : W.odOf v = some k := by simpa using (List.mem_filter.1 hv).2
    simp only [hv', hS.ttmem]
  rw [h2, hS.trips, hS.dist]
  by_cases hk : k ∈ S.tt.keys
  · simp only [if_pos hk]
    have hne : ((vs.filter fun v => decide (W.odOf v = some k)).length : ℚ) ≠ 0 := by
      obtain ⟨v, hv, he⟩ := (hS.ttmem k).1 hk
      have : v ∈ vs.filter fun v => decide (W.odOf v = some k) := by simp [hv, odDone_of he]
      exact Nat.cast_ne_zero.2 (by rw [Ne, List.length_eq_zero_iff]; exact List.ne_nil_of_mem this)
    unfold average
    rw [List.length_map]
    push_cast
    field_simp
  · simp [if_neg hk]

theorem row_free (f : NodeId → NodeId → WithTop ℚ) (k : NodeId × NodeId) :
    scaleTop (S.comp.val k) (if k ∈ S.tt.keys then f k.1 k.2 else 0) =
      ((vs.filter fun v => decide (W.odDone v = some k)).map
        fun v => scaleTop W.dn (f (W.V.orig v) ((W.V.dest v).getD 0))).sum := by
  by_cases hk : k ∈ S.tt.keys
  · obtain ⟨v, hv, he⟩ := (hS.ttmem k).1 hk
    have hm : v ∈ vs.filter fun v => decide (W.odDone v = some k) := by simp [hv, he]
    rw [if_pos hk, hS.comp, scaleTop_group _ _ _ (List.ne_nil_of_mem hm)]
    congr 1
    refine List.map_congr_left fun v hv => ?_
    have hv' := odDone_of (by simpa using (List.mem_filter.1 hv).2)
    unfold odOf at hv'
    cases hd : W.V.dest v with
    | none => rw [hd] at hv'; cases hv'
    | some d => rw [hd] at hv'; cases hv'; rfl
  · rw [if_neg hk, scaleTop_zero]
    have : (vs.filter fun v => decide (W.odDone v = some k)) = [] := by
      rw [List.filter_eq_nil_iff]
      intro v hv he
      exact hk ((hS.ttmem k).2 ⟨v, hv, by simpa using he⟩)
    rw [this]; rfl

theorem row_short (f : NodeId → NodeId → WithTop ℚ) (k : NodeId × NodeId) :
    scaleTop (S.trips.val k) (if k ∈ S.tt.keys then f k.1 k.2 else 0) =
      ((vs.filter fun v => decide (W.odOf v = some k)).map
        fun v => scaleTop W.dn (if ∃ u ∈ vs, W.odDone u = W.odOf v then
          f (W.V.orig v) ((W.V.dest v).getD 0) else 0)).sum := by
  have h2 : ((vs.filter fun v => decide (W.odOf v = some k)).map
        fun v => scaleTop W.dn (if ∃ u ∈ vs, W.odDone u = W.odOf v then
          f (W.V.orig v) ((W.V.dest v).getD 0) else 0)) =
      (vs.filter fun v => decide (W.odOf v = some k)).map
        fun v => scaleTop W.dn (if k ∈ S.tt.keys then f k.1 k.2 else 0) := by
    refine List.map_congr_left fun v hv => ?_
    have hv' : W.odOf v = some k := by simpa using (List.mem_filter.1 hv).2
    simp only [hv', hS.ttmem]
    have : f (W.V.orig v) ((W.V.dest v).getD 0) = f k.1 k.2 := by
      unfold odOf at hv'
      cases hd : W.V.dest v with
      | none => rw [hd] at hv'; cases hv'
      | some d => rw [hd] at hv'; cases hv'; rfl
    rw [this]
  rw [h2]
  by_cases hn : (vs.filter fun v => decide (W.odOf v = some k)) = []
  · rw [hn]
    have hk : k ∉ S.tt.keys := by
      intro hk
      obtain ⟨v, hv, he⟩ := (hS.ttmem k).1 hk
      have : v ∈ vs.filter fun v => decide (W.odOf v = some k) := by simp [hv, odDone_of he]
      rw [hn] at this; cases this
    rw [if_neg hk, scaleTop_zero]; rfl
  · rw [hS.trips, scaleTop_group _ _ _ hn]

end OdSpec

theorem between_eq (W : World) (O D : List NodeId) :
    ((List.range W.nVeh).filter fun v => (W.odOf v).any fun k => decide (k.1 ∈ O) && decide (k.2 ∈ D)) =
      W.between O D := by
  unfold between withDest
  rw [List.filter_filter]
  refine List.filter_congr fun v _ => ?_
  unfold odOf
  cases W.V.dest v <;> simp

theorem doneBetween_eq {W : World} (h : Reachable Any W) (hfl : FlOK W.cfg.fl) (hdt : 0 ≤ W.dt) (O D : List NodeId) :
    ((List.range W.nVeh).filter fun v => (W.odDone v).any fun k => decide (k.1 ∈ O) && decide (k.2 ∈ D)) =
      W.doneBetween O D := by
  unfold doneBetween
  rw [← finished_eq h hfl hdt, List.filter_filter]
  refine List.filter_congr fun v _ => ?_
  unfold odDone odOf
  by_cases ht : W.V.travelTime v ≠ -1
  · simp only [if_pos ht]
    cases W.V.dest v <;> simp
  · simp only [if_neg ht]; simp

theorem pairDone_iff {W : World} (h : Reachable Any W) (hfl : FlOK W.cfg.fl) (hdt : 0 ≤ W.dt) {v : VehId}
    (hv : v ∈ W.withDest) : (∃ u ∈ List.range W.nVeh, W.odDone u = W.odOf v) ↔ W.PairDone v := by
  have hmem : ∀ u, u ∈ W.finished ↔ u ∈ List.range W.nVeh ∧ (W.odDone u).isSome = true := by
    intro u; rw [← finished_eq h hfl hdt, List.mem_filter]
  have hs : (W.odOf v).isSome = true := by
    have := (List.mem_filter.1 hv).2
    unfold odOf; simpa using this
  constructor
  · rintro ⟨u, hu, h2⟩
    have h1 : (W.odDone u).isSome = true := by rw [h2]; exact hs
    refine ⟨u, (hmem u).2 ⟨hu, h1⟩, ?_⟩
    obtain ⟨k, hk⟩ := Option.isSome_iff_exists.1 h1
    have e1 := odDone_of hk
    rw [hk] at h2
    unfold odOf at e1 h2
    cases hdu : W.V.dest u with
    | none => rw [hdu] at e1; cases e1
    | some a =>
      cases hdv : W.V.dest v with
      | none => rw [hdv] at h2; cases h2
      | some b =>
        rw [hdu] at e1; rw [hdv] at h2
        simp only [Option.map_some, Option.some.injEq] at e1 h2
        rw [← e1] at h2
        exact ⟨congrArg Prod.fst h2, congrArg some (congrArg Prod.snd h2)⟩
  · rintro ⟨u, hu, h1, h2⟩
    obtain ⟨h4, h5⟩ := (hmem u).1 hu
    refine ⟨u, h4, ?_⟩
    obtain ⟨k, hk⟩ := Option.isSome_iff_exists.1 h5
    rw [hk, ← odDone_of hk]
    unfold odOf; rw [h1, h2]

end UX
