import Verif.Model.Analyzer
import Verif.Proofs.Basic
import Mathlib.Algebra.BigOperators.Group.List.Basic
import Mathlib.Algebra.BigOperators.Ring.List
import Mathlib.Tactic.Ring
import Mathlib.Tactic.FieldSimp

/-! # Grouping by origin and destination -/

namespace UX
open World

/-- Summing within groups and then over the groups sums over everything that is in some group. -/
theorem sum_group {κ α M : Type} [DecidableEq κ] [AddCommMonoid M] (od : α → Option κ) (f : α → M)
    (keys : List κ) (hk : keys.Nodup) (vs : List α) :
    (keys.map fun k => ((vs.filter fun v => decide (od v = some k)).map f).sum).sum =
      ((vs.filter fun v => decide (∃ k ∈ keys, od v = some k)).map f).sum := by
  induction vs with
  | nil => simp
  | cons v vs ih =>
    have h1 : ∀ k, (((v :: vs).filter fun v => decide (od v = some k)).map f).sum =
        (if od v = some k then f v else 0) + ((vs.filter fun v => decide (od v = some k)).map f).sum := by
      intro k
      by_cases h : od v = some k
      · simp [List.filter_cons, h]
      · simp [List.filter_cons, h]
    simp only [h1]
    rw [List.sum_map_add, ih]
    have h2 : (keys.map fun k => if od v = some k then f v else 0).sum =
        if ∃ k ∈ keys, od v = some k then f v else 0 := by
      clear ih h1
      induction keys with
      | nil => simp
      | cons k ks ihk =>
        have hn := List.nodup_cons.1 hk
        rw [List.map_cons, List.sum_cons, ihk hn.2]
        by_cases h : od v = some k
        · have : ¬ ∃ k' ∈ ks, od v = some k' := by
            rintro ⟨k', hm, he⟩
            rw [h] at he
            exact hn.1 (by rw [Option.some.inj he]; exact hm)
          rw [if_pos h, if_neg this, if_pos ⟨k, List.mem_cons_self, h⟩, add_zero]
        · rw [if_neg h, zero_add]
          congr 1
          simp [h]
    rw [h2]
    by_cases h : ∃ k ∈ keys, od v = some k
    · rw [if_pos h, List.filter_cons_of_pos (by simpa using h), List.map_cons, List.sum_cons]
    · rw [if_neg h, List.filter_cons_of_neg (by simpa using h), zero_add]

/-- Origin and destination of a vehicle. -/
def World.odOf (W : World) (v : VehId) : Option (NodeId × NodeId) :=
  (W.V.dest v).map fun d => (W.V.orig v, d)

/-- Finished, as `od_analysis` sees it. -/
def World.odDone (W : World) (v : VehId) : Option (NodeId × NodeId) :=
  if W.V.travelTime v ≠ -1 then W.odOf v else none

/-- Closed form of the dictionaries. -/
structure OdSpec (W : World) (vs : List VehId) (S : OdStats) : Prop where
  nodup : S.trips.keys.Nodup
  mem : ∀ k, k ∈ S.trips.keys ↔ ∃ v ∈ vs, W.odOf v = some k
  ttmem : ∀ k, k ∈ S.tt.keys ↔ ∃ v ∈ vs, W.odDone v = some k
  trips : ∀ k, S.trips.val k = W.dn * (vs.filter fun v => decide (W.odOf v = some k)).length
  comp : ∀ k, S.comp.val k = W.dn * (vs.filter fun v => decide (W.odDone v = some k)).length
  tt : ∀ k, S.tt.val k = (vs.filter fun v => decide (W.odDone v = some k)).map W.V.travelTime
  dist : ∀ k, S.dist.val k = (vs.filter fun v => decide (W.odOf v = some k)).map W.V.dist

theorem DDict.modify_mem {κ α : Type} [DecidableEq κ] (d : DDict κ α) (k j : κ) (f : α → α) :
    j ∈ (d.modify k f).keys ↔ j ∈ d.keys ∨ j = k := by
  unfold DDict.modify
  dsimp only
  split
  · rename_i h
    exact ⟨.inl, fun h' => h'.elim id (fun e => e ▸ h)⟩
  · simp

theorem DDict.modify_nodup {κ α : Type} [DecidableEq κ] (d : DDict κ α) (k : κ) (f : α → α)
    (h : d.keys.Nodup) : (d.modify k f).keys.Nodup := by
  unfold DDict.modify
  dsimp only
  split
  · exact h
  · rename_i hk
    rw [List.nodup_append]
    refine ⟨h, by simp, ?_⟩
    intro a ha b hb hab
    simp at hb
    subst hb hab
    exact hk ha

theorem odSpec_step {W : World} {vs : List VehId} {S : OdStats} (h : OdSpec W vs S) (v : VehId) :
    OdSpec W (vs ++ [v]) (W.odCollect S v) := by
  obtain ⟨h1, h2, h3, h4, h5, h6, h7⟩ := h
  unfold odCollect
  cases hd : W.V.dest v with
  | none =>
    have e1 : W.odOf v = none := by simp [odOf, hd]
    have e2 : W.odDone v = none := by simp [odDone, e1]
    constructor <;> simp [h1, h2, h3, h4, h5, h6, h7, e1, e2, List.filter_append]
  | some d =>
    dsimp only
    have e1 : W.odOf v = some (W.V.orig v, d) := by simp [odOf, hd]
    by_cases ht : W.V.travelTime v ≠ -1
    · have e2 : W.odDone v = some (W.V.orig v, d) := by simp only [odDone, e1, if_pos ht]
      rw [if_pos ht]
      refine ⟨DDict.modify_nodup _ _ _ h1, fun k => ?_, fun k => ?_, fun k => ?_, fun k => ?_,
        fun k => ?_, fun k => ?_⟩
      · rw [DDict.modify_mem, h2]; simp [e1, or_and_right, exists_or, eq_comm]
      · rw [DDict.modify_mem, h3]; simp [e2, or_and_right, exists_or, eq_comm]
      all_goals
        simp only [DDict.modify, upd_apply, List.filter_append, List.length_append, List.map_append]
        by_cases hk : k = (W.V.orig v, d)
        · subst hk
          simp [h4, h5, h6, h7, e1, e2, Nat.mul_add]
        · have hk' : (W.V.orig v, d) ≠ k := fun e => hk e.symm
          simp [h4, h5, h6, h7, e1, e2, hk, hk']
    · have e2 : W.odDone v = none := by simp only [odDone, if_neg ht]
      rw [if_neg ht]
      refine ⟨DDict.modify_nodup _ _ _ h1, fun k => ?_, fun k => ?_, fun k => ?_, fun k => ?_,
        fun k => ?_, fun k => ?_⟩
      · rw [DDict.modify_mem, h2]; simp [e1, or_and_right, exists_or, eq_comm]
      · rw [h3]; simp [e2]
      all_goals
        simp only [DDict.modify, upd_apply, List.filter_append, List.length_append, List.map_append]
        by_cases hk : k = (W.V.orig v, d)
        · subst hk
          simp [h4, h5, h6, h7, e1, e2, Nat.mul_add]
        · have hk' : (W.V.orig v, d) ≠ k := fun e => hk e.symm
          simp [h4, h5, h6, h7, e1, e2, hk, hk']

theorem odStats_spec (W : World) : OdSpec W (List.range W.nVeh) W.odStats := by
  have key : ∀ (ws vs : List VehId) (S : OdStats), OdSpec W vs S →
      OdSpec W (vs ++ ws) (ws.foldl W.odCollect S) := by
    intro ws
    induction ws with
    | nil => intro vs S h; simpa using h
    | cons w ws ih =>
      intro vs S h
      have := ih (vs ++ [w]) _ (odSpec_step h w)
      simpa using this
  have := key (List.range W.nVeh) [] { trips := .empty 0, comp := .empty 0, tt := .empty [], dist := .empty [] }
    (by constructor <;> simp [DDict.empty])
  rw [List.nil_append] at this
  exact this

theorem odDone_of {W : World} {v : VehId} {k} (h : W.odDone v = some k) : W.odOf v = some k := by
  unfold odDone at h
  split at h
  · exact h
  · cases h

/-- The sums taken by `basic_analysis`, in closed form. -/
theorem basic_sums (W : World) :
    (W.odRows.map (·.total)).sum =
      W.dn * ((List.range W.nVeh).filter fun v => (W.odOf v).isSome).length ∧
    (W.odRows.map (·.comp)).sum =
      W.dn * ((List.range W.nVeh).filter fun v => (W.odDone v).isSome).length ∧
    (W.odRows.map fun r => (r.comp : ℚ) * r.ttAve).sum =
      W.dn * (((List.range W.nVeh).filter fun v => (W.odDone v).isSome).map W.V.travelTime).sum ∧
    (W.odRows.map fun r => r.distAve * (r.total : ℚ)).sum =
      W.dn * (((List.range W.nVeh).filter fun v =>
        decide (∃ u ∈ List.range W.nVeh, (W.odDone u).isSome ∧ W.odDone u = W.odOf v)).map W.V.dist).sum := by
  have hS := odStats_spec W
  generalize hvs : List.range W.nVeh = vs at hS ⊢
  unfold odRows
  simp only [List.map_map, Function.comp_def]
  generalize W.odStats = S at hS ⊢
  have hmem : ∀ v ∈ vs, ∀ k, W.odOf v = some k → k ∈ S.trips.keys := fun v hv k hk =>
    (hS.mem k).2 ⟨v, hv, hk⟩
  have len : ∀ (od : VehId → Option (NodeId × NodeId)) k,
      (vs.filter fun v => decide (od v = some k)).length =
        ((vs.filter fun v => decide (od v = some k)).map fun _ => 1).sum := by
    intro od k; simp
  have fl : ∀ (od : VehId → Option (NodeId × NodeId)), (∀ v ∈ vs, ∀ k, od v = some k → k ∈ S.trips.keys) →
      (vs.filter fun v => decide (∃ k ∈ S.trips.keys, od v = some k)) = vs.filter fun v => (od v).isSome := by
    intro od h
    refine List.filter_congr fun v hv => ?_
    rw [Bool.eq_iff_iff, decide_eq_true_eq, Option.isSome_iff_exists]
    exact ⟨fun ⟨k, _, hk⟩ => ⟨k, hk⟩, fun ⟨k, hk⟩ => ⟨k, h v hv k hk, hk⟩⟩
  have hmemD : ∀ v ∈ vs, ∀ k, W.odDone v = some k → k ∈ S.trips.keys := fun v hv k hk =>
    hmem v hv k (odDone_of hk)
  refine ⟨?_, ?_, ?_, ?_⟩
  · simp only [hS.trips, List.sum_map_mul_left]
    congr 1
    simp only [len]
    rw [sum_group W.odOf (fun _ => 1) _ hS.nodup vs, fl _ hmem]
    simp
  · simp only [hS.comp, List.sum_map_mul_left]
    congr 1
    simp only [len]
    rw [sum_group W.odDone (fun _ => 1) _ hS.nodup vs, fl _ hmemD]
    simp
  · have : ∀ k, (S.comp.val k : ℚ) * (if k ∈ S.tt.keys then average (S.tt.val k) else 0) =
        W.dn * ((vs.filter fun v => decide (W.odDone v = some k)).map W.V.travelTime).sum := by
      intro k
      rw [hS.comp, hS.tt]
      by_cases hk : k ∈ S.tt.keys
      · rw [if_pos hk]
        have hne : ((vs.filter fun v => decide (W.odDone v = some k)).length : ℚ) ≠ 0 := by
          obtain ⟨v, hv, he⟩ := (hS.ttmem k).1 hk
          have : v ∈ vs.filter fun v => decide (W.odDone v = some k) := by simp [hv, he]
          exact Nat.cast_ne_zero.2 (by rw [Ne, List.length_eq_zero_iff]; exact List.ne_nil_of_mem this)
        unfold average
        rw [List.length_map]
        push_cast
        field_simp
      · rw [if_neg hk]
        have : (vs.filter fun v => decide (W.odDone v = some k)) = [] := by
          rw [List.filter_eq_nil_iff]
          intro v hv he
          exact hk ((hS.ttmem k).2 ⟨v, hv, by simpa using he⟩)
        rw [this]; simp
    simp only [this, List.sum_map_mul_left]
    congr 1
    rw [sum_group W.odDone W.V.travelTime _ hS.nodup vs, fl _ hmemD]
  · have : ∀ k, (if k ∈ S.tt.keys then average (S.dist.val k) else 0) * (S.trips.val k : ℚ) =
        W.dn * ((vs.filter fun v => decide (W.odOf v = some k)).map
          fun v => if k ∈ S.tt.keys then W.V.dist v else 0).sum := by
      intro k
      rw [hS.trips, hS.dist]
      by_cases hk : k ∈ S.tt.keys
      · simp only [if_pos hk]
        have hne : ((vs.filter fun v => decide (W.odOf v = some k)).length : ℚ) ≠ 0 := by
          obtain ⟨v, hv, he⟩ := (hS.ttmem k).1 hk
          have : v ∈ vs.filter fun v => decide (W.odOf v = some k) := by simp [hv, odDone_of he]
          exact Nat.cast_ne_zero.2 (by rw [Ne, List.length_eq_zero_iff]; exact List.ne_nil_of_mem this)
        unfold average
        rw [List.length_map]
        push_cast
        field_simp
      · simp [if_neg hk]
    simp only [this, List.sum_map_mul_left]
    congr 1
    have h2 : ∀ k, ((vs.filter fun v => decide (W.odOf v = some k)).map
          fun v => if k ∈ S.tt.keys then W.V.dist v else 0).sum =
        ((vs.filter fun v => decide (W.odOf v = some k)).map
          fun v => if ∃ u ∈ vs, (W.odDone u).isSome ∧ W.odDone u = W.odOf v then W.V.dist v else 0).sum := by
      intro k
      congr 1
      refine List.map_congr_left fun v hv => ?_
      have hv' : W.odOf v = some k := by simpa using (List.mem_filter.1 hv).2
      congr 1
      rw [hS.ttmem, hv', eq_iff_iff]
      constructor
      · rintro ⟨u, hu, he⟩; exact ⟨u, hu, by simp [he], he⟩
      · rintro ⟨u, hu, _, he⟩; exact ⟨u, hu, he⟩
    simp only [h2]
    rw [sum_group W.odOf _ _ hS.nodup vs, fl _ hmem]
    have h3 : ∀ (l : List VehId), (∀ v ∈ l, v ∈ vs) →
        ((l.filter fun v => (W.odOf v).isSome).map fun v =>
          if ∃ u ∈ vs, (W.odDone u).isSome ∧ W.odDone u = W.odOf v then W.V.dist v else 0).sum =
        ((l.filter fun v => decide (∃ u ∈ vs, (W.odDone u).isSome ∧ W.odDone u = W.odOf v)).map W.V.dist).sum := by
      intro l hl
      induction l with
      | nil => simp
      | cons v l ih =>
        have := ih (fun u hu => hl u (List.mem_cons_of_mem _ hu))
        by_cases hP : ∃ u ∈ vs, (W.odDone u).isSome ∧ W.odDone u = W.odOf v
        · have hs : (W.odOf v).isSome = true := by
            obtain ⟨u, _, h1, h2⟩ := hP; rw [← h2]; exact h1
          rw [List.filter_cons_of_pos (by simpa using hs), List.filter_cons_of_pos (by simpa using hP),
            List.map_cons, List.map_cons, List.sum_cons, List.sum_cons, if_pos hP, this]
        · have e : (v :: l).filter (fun v => decide (∃ u ∈ vs, (W.odDone u).isSome ∧ W.odDone u = W.odOf v)) =
              l.filter fun v => decide (∃ u ∈ vs, (W.odDone u).isSome ∧ W.odDone u = W.odOf v) :=
            List.filter_cons_of_neg (by simpa using hP)
          rw [e, ← this]
          by_cases hs : (W.odOf v).isSome = true
          · rw [List.filter_cons_of_pos (by simpa using hs), List.map_cons, List.sum_cons, if_neg hP, zero_add]
          · rw [List.filter_cons_of_neg (by simpa using hs)]
    exact h3 vs (fun v hv => hv)

end UX
