import Verif.Model.Utilities
import Verif.Props.RouteChoice
import Verif.Proofs.Exec

/-! When shortest-path tables are recorded, and that the record never changes afterwards. -/

namespace UX
open World

theorem routeSearchAll_record {W W1 : World} (h : W.routeSearchAll = .ok W1) :
    W1.R.record = upd W.R.record W.T (some W1.R.dist) := by
  unfold routeSearchAll at h
  rw [bind_ok] at h
  obtain ⟨acc, h1, h⟩ := h
  rw [pure_ok] at h
  subst h
  rfl

/-- A step records its table iff a search is due. -/
theorem tick_record {W W' : World} (hi : Inv W) (hf : W.finalized = true) (ht : W.tick = .ok W') :
    W'.R.record = if W.T % W.cfg.deltatRoute = 0 then upd W.R.record W.T (some W'.R.dist) else W.R.record := by
  obtain ⟨W0, h0, rfl⟩ := tick_ok ht
  obtain ⟨W1, W2, W3, W4, W5, W6, hp, rfl⟩ := step_phases (hi.core hf) h0
  have st : Static W W5 := (((hp.s1.static.trans hp.s2.static).trans hp.s3.static).trans
    hp.s4.static).trans hp.s5.static
  have hR := hp.R
  show W6.R.record = if _ then upd W.R.record W.T (some W6.R.dist) else W.R.record
  split
  · rename_i hdue
    obtain ⟨V, hV, e1, e2, e3⟩ := routeStep_search (by rw [st.T, st.cfg]; exact hdue) hp.p6
    have := routeSearchAll_record hV
    rw [e1]
    show V.R.record = upd W.R.record W.T (some V.R.dist)
    rw [this, hR, st.T]
  · rename_i hdue
    have hr := hp.p6
    unfold routeStep at hr
    rw [st.T, st.cfg] at hr
    split at hr
    · dsimp only at hr
      rw [pure_bind, pure_ok] at hr
      subst hr
      show W5.R.record = _
      rw [hR]
    · rw [pure_ok] at hr
      subst hr
      rw [hR]

/-- What an API call or a step does to clock and record of a finalized world. -/
theorem ApiStep.record {W W' : World} (h : ApiStep W W') (hi : Inv W) (hf : W.finalized = true) :
    W'.finalized = true ∧ W'.cfg = W.cfg ∧ W'.tmax = W.tmax ∧ W'.tsize = W.tsize ∧
      ((W'.T = W.T ∧ W'.R.record = W.R.record) ∨ (W.tick = .ok W' ∧ W'.T = W.T + 1)) := by
  have hcfg := h.cfg hi
  rcases addDest_soft_R h hi with e | ⟨e, -⟩ | ⟨-, ht⟩
  · rcases h.kinds with ⟨hf', -⟩ | ⟨hf', -⟩ | ⟨a, ha⟩ | ⟨hf', -⟩ | ⟨-, hT, ht⟩ | hs | hs
    · rw [hf] at hf'; cases hf'
    · rw [hf] at hf'; cases hf'
    · obtain ⟨o, d, dep, pref, cache, lp, la, nm, -, -, -, -, -, -, -, -, rfl⟩ := addVehicle_ok ha
      exact ⟨hf, rfl, rfl, rfl, .inl ⟨rfl, rfl⟩⟩
    · rw [hf] at hf'; cases hf'
    · obtain ⟨a1, a2, a3, a4, a5⟩ := tick_frame hi hf ht
      obtain ⟨W0, h0, rfl⟩ := tick_ok ht
      obtain ⟨W6, hs, rfl⟩ := step_star (hi.core hf) h0
      exact ⟨a3, a4, hs.static.tmax, a2, .inr ⟨ht, a1⟩⟩
    · have st := hs.static
      exact ⟨by rw [st.finalized, hf], st.cfg, st.tmax, st.tsize, .inl ⟨st.T, by rw [e]⟩⟩
    · obtain ⟨_, _, _, _, _, _, _, _, _, _, _, _, _, _, _, _, _, _, _, rfl, _⟩ := hs
      exact ⟨hf, rfl, rfl, rfl, .inl ⟨rfl, rfl⟩⟩
  · rw [hf] at e; cases e
  · obtain ⟨a1, a2, a3, a4, a5⟩ := tick_frame hi hf ht
    obtain ⟨W0, h0, rfl⟩ := tick_ok ht
    obtain ⟨W6, hs, rfl⟩ := step_star (hi.core hf) h0
    exact ⟨a3, a4, hs.static.tmax, a2, .inr ⟨ht, a1⟩⟩

theorem finalize_tsize_eq (W : World) (tm : Option ℚ) :
    (W.finalize tm).tsize = (pyInt ((W.finalize tm).fl (W.fixedTmax tm / (W.finalize tm).dt))).toNat := by
  have key : ∀ (ns : List NodeId) (A : World), (ns.foldl adjustNodeCapacity A).tsize = A.tsize ∧
      (ns.foldl adjustNodeCapacity A).cfg = A.cfg := by
    intro ns
    induction ns with
    | nil => intro A; exact ⟨rfl, rfl⟩
    | cons n ns ih =>
      intro A
      rw [List.foldl_cons]
      have h1 : (A.adjustNodeCapacity n).tsize = A.tsize ∧ (A.adjustNodeCapacity n).cfg = A.cfg := by
        unfold adjustNodeCapacity
        repeat' split
        all_goals exact ⟨rfl, rfl⟩
      exact ⟨(ih _).1.trans h1.1, (ih _).2.trans h1.2⟩
  have hc : (W.finalize tm).cfg = W.cfg := by
    unfold World.finalize
    dsimp only
    split
    · exact (key _ _).2
    · rfl
  unfold World.fl World.dt
  rw [hc]
  unfold World.finalize
  dsimp only
  split
  · exact (key _ _).1
  · rfl

/-- Time steps already simulated and time limits, for every reachable world. -/
theorem record_iff {W : World} (h : Reachable Any W) :
    (W.finalized = true → (∃ tm, W.tmax = some tm ∧ W.tsize = (pyInt (W.fl (tm / W.dt))).toNat) ∧
      ∀ k, W.R.record k ≠ none ↔ k < W.T ∧ k % W.cfg.deltatRoute = 0) := by
  induction h with
  | new => intro hf; simp [World.new] at hf
  | @next W W' hr hs hok ih =>
    intro hf'
    by_cases hf : W.finalized = true
    · obtain ⟨⟨tm, i1, i2⟩, i3⟩ := ih hf
      obtain ⟨-, b1, b2, b3, hb⟩ := hs.record hr.inv hf
      refine ⟨⟨tm, by rw [b2, i1], by rw [b3, i2]; unfold World.fl World.dt; rw [b1]⟩, ?_⟩
      rcases hb with ⟨c1, c2⟩ | ⟨c1, c2⟩
      · rw [c1, c2, b1]; exact i3
      · intro k
        rw [tick_record hr.inv hf c1, c2, b1]
        split
        · rename_i hdue
          by_cases hk : k = W.T
          · subst hk; simp [upd_same, hdue]
          · rw [upd_ne _ _ hk, i3]
            constructor
            · rintro ⟨a, b⟩; exact ⟨by omega, b⟩
            · rintro ⟨a, b⟩; exact ⟨by omega, b⟩
        · rename_i hdue
          rw [i3]
          constructor
          · rintro ⟨a, b⟩; exact ⟨by omega, b⟩
          · rintro ⟨a, b⟩
            refine ⟨?_, b⟩
            rcases Nat.lt_succ_iff_lt_or_eq.1 a with e | e
            · exact e
            · subst e; exact absurd b hdue
    · have hf0 : W.finalized = false := by simpa using hf
      rcases hs.kinds with ⟨-, a, ph, t, soff, -, rfl⟩ | ⟨-, a, ha⟩ | ⟨a, ha⟩ | ⟨-, tm, rfl⟩ | ⟨e, -⟩ | hs | hs
      · exact absurd hf' hf
      · obtain ⟨s, e, nm, k, p, -, -, -, -, -, -, rfl⟩ := addLink_ok ha
        exact absurd hf' hf
      · obtain ⟨o, d, dep, pref, cache, lp, la, nm, -, -, -, -, -, -, -, -, rfl⟩ := addVehicle_ok ha
        exact absurd hf' hf
      · refine ⟨⟨W.fixedTmax tm, ?_, ?_⟩, ?_⟩
        · obtain ⟨ts, tta, fc, fr, la, e⟩ := finalize_frame W tm
          rw [e]
        · exact finalize_tsize_eq W tm
        · obtain ⟨ts, tta, fc, fr, la, e⟩ := finalize_frame W tm
          rw [e]; intro k; simp
      · exact absurd e hf
      · rw [hs.static.finalized] at hf'; exact absurd hf' hf
      · obtain ⟨_, _, _, _, _, _, _, _, _, _, _, _, _, _, _, _, _, _, _, rfl, _⟩ := hs
        exact absurd hf' hf

end UX
