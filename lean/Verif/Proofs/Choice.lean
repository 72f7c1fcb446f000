import Verif.Proofs.Route
import Verif.Proofs.Count

/-! Which link a vehicle is sent to, and where passages and departures of a step come from. -/

namespace UX
open World

theorem mem_preferAvoid {W : World} {v : VehId} {n : NodeId} {l : LinkId} :
    l ∈ W.preferAvoid v (W.N.outlinks n) ↔ Allowed W v n l := by
  unfold preferAvoid Allowed sortByName
  dsimp only
  split <;> rename_i h1 <;> split <;> rename_i h2 <;>
    simp only [List.any_eq_true, List.contains_eq_mem, decide_eq_true_eq, List.mem_mergeSort,
      List.mem_filter, Bool.not_eq_eq_eq_not, Bool.not_true, decide_eq_false_iff_not] at * <;> grind

theorem mem_nextCandidates {W : World} {v : VehId} {n : NodeId} {l : LinkId}
    (h : l ∈ W.nextCandidates v n) :
    Allowed W v n l ∧ (W.cfg.noCyclic = true → W.V.mode v ≠ .taxi → Visited W v (W.L.endN l) →
      ∀ k, Allowed W v n k → Visited W v (W.L.endN k)) := by
  have hvis : ∀ m, (W.traveledNodes v).contains m = true ↔ Visited W v m := by
    intro m
    unfold traveledNodes Visited
    rw [List.contains_eq_mem, decide_eq_true_eq, List.mem_filterMap]
    constructor
    · rintro ⟨⟨t, e⟩, h1, h2⟩
      cases e with
      | home => cases h2
      | ended => cases h2
      | link l => exact ⟨t, l, h1, by simpa using h2⟩
    · rintro ⟨t, l, h1, h2⟩
      exact ⟨(t, .link l), h1, by simp [h2]⟩
  unfold nextCandidates at h
  dsimp only at h
  split at h
  · rename_i hc
    split at h
    · rename_i he
      refine ⟨mem_preferAvoid.mp h, fun _ _ _ k hk => ?_⟩
      by_contra hv
      have : k ∈ (W.preferAvoid v (W.N.outlinks n)).filter
          (fun l => !(W.traveledNodes v).contains (W.L.endN l)) := by
        rw [List.mem_filter]
        refine ⟨mem_preferAvoid.mpr hk, ?_⟩
        rw [← hvis] at hv
        simpa using hv
      rw [he] at this; cases this
    · rw [List.mem_filter] at h
      refine ⟨mem_preferAvoid.mp h.1, fun _ _ hv => ?_⟩
      rw [← hvis] at hv
      rw [hv] at h
      simp at h
  · rename_i hc
    refine ⟨mem_preferAvoid.mp h, fun h1 h2 => ?_⟩
    simp [h1, h2] at hc

/-- What is known about the events of a time step that starts in `W`. -/
def NewOK (W : World) : Event → Prop
  | .pass _ v n a b _ => v ∈ W.N.incoming n ∧ W.V.link v = some a ∧ W.V.rnl v = .to b
  | .depart _ v n l => W.V.state v = .wait ∧ W.V.orig v = n ∧ l ∈ W.N.outlinks n ∧
      (W.V.specRoute v = none → Allowed W v n l) ∧
      (∀ r, W.V.specRoute v = some r → r[0]? = some l)
  | _ => True

structure EvI (W X : World) : Prop where
  st : Static W X
  inc : ∀ n v, v ∈ X.N.incoming n → v ∈ W.N.incoming n
  lnk : ∀ n v, v ∈ X.N.incoming n → X.V.link v ≠ none → X.V.link v = W.V.link v
  wait : ∀ v, X.V.state v = .wait → W.V.state v = .wait
  rnl : X.V.rnl = W.V.rnl
  ev : ∀ e ∈ X.trace, e.at = W.T → NewOK W e

theorem EvI.early {W X Y : World} {act : Act} (h : EvI W X) (ha : isEarly act) (hc : Core X)
    (hp : Prim act X Y) : EvI W Y := by
  have hst := h.st.trans hp.static
  have hs := hp.shape hc.s
  clear hp
  cases hs with
  | @depart _ n v t cs l o hn hq hcs hl hout hent hcum hlead =>
    have hg := hc.s.genq_mem n v (by simp [hq])
    refine ⟨hst, h.inc, fun m u hu hl => ?_, fun u hu => ?_, h.rnl, ?_⟩
    · have : u ≠ v := by
        rintro rfl
        exact (hc.s.inc_old m u hu).2 hg.1
      dsimp only at hl ⊢
      rw [upd_ne _ _ this] at hl ⊢
      exact h.lnk m u hu hl
    · dsimp only at hu
      rw [upd_apply] at hu
      split at hu
      · cases hu
      · exact h.wait u hu
    · simp only [List.mem_cons, forall_eq_or_imp]
      refine ⟨fun _ => ⟨h.wait v hg.1, ?_, ?_, ?_, ?_⟩, h.ev⟩
      · rw [← h.st.orig]; exact hg.2
      · rw [← h.st.outlinks]; exact hout
      · intro hsr
        unfold originCandidates at hcs
        rw [h.st.specRoute, hsr] at hcs
        simp only [Except.ok.injEq] at hcs
        rw [← hcs] at hl
        have := mem_preferAvoid.mp hl
        unfold Allowed at this ⊢
        rwa [h.st.outlinks, h.st.linksPrefer, h.st.linksAvoid] at this
      · intro r hsr
        unfold originCandidates at hcs
        rw [h.st.specRoute, hsr] at hcs
        cases r with
        | nil => simp at hcs
        | cons k r =>
          dsimp only at hcs
          split at hcs
          · simp only [Except.ok.injEq] at hcs
            rw [← hcs] at hl
            simpa using (List.mem_singleton.mp hl).symm
          · cases hcs
  | @move _ n v a b t o q nl fc tta hn hinc hla hv hr hsig hout hfl hent hcd hca hu hlead hnl hq hfc htta =>
    have hinc' : ∀ m u, u ∈ upd X.N.incoming n ((X.N.incoming n).erase v) m →
        u ∈ X.N.incoming m ∧ u ≠ v := by
      intro m u hu
      have hmv : m ≠ n → v ∉ X.N.incoming m := fun hmn hv' =>
        hmn (((hc.s.inc_run m v a hv' hla).1).symm.trans (hc.s.inc_run n v a hinc hla).1)
      rw [upd_apply] at hu
      split at hu
      · rename_i e
        subst e
        exact ⟨List.mem_of_mem_erase hu, fun e => by
          subst e; exact (hc.s.inc_nodup m).not_mem_erase hu⟩
      · rename_i hmn
        exact ⟨hu, fun e => hmv hmn (e ▸ hu)⟩
    refine ⟨hst, fun m u hu => h.inc m u (hinc' m u hu).1, fun m u hu hl => ?_, h.wait, h.rnl, ?_⟩
    · obtain ⟨h1, h2⟩ := hinc' m u hu
      dsimp only at hl ⊢
      rw [upd_ne _ _ h2] at hl ⊢
      exact h.lnk m u h1 hl
    · simp only [List.mem_cons, forall_eq_or_imp]
      refine ⟨fun _ => ⟨h.inc n v hinc, ?_, ?_⟩, h.ev⟩
      · rw [← h.lnk n v hinc (by simp [hla])]; exact hla
      · rw [← h.rnl]; exact hr
  | @endTrip _ v l t log s c lt tta hl hv hf hcd hrun hliv hlt hlog htta =>
    refine ⟨hst, h.inc, fun m u hu hl => ?_, fun u hu => ?_, h.rnl, ?_⟩
    · dsimp only at hl ⊢
      rw [upd_apply] at hl ⊢
      split at hl
      · exact absurd rfl hl
      · rename_i hne; rw [if_neg hne]; exact h.lnk m u hu hl
    · dsimp only at hu
      rw [upd_apply] at hu
      split at hu
      · split at hu <;> cases hu
      · exact h.wait u hu
    · simp only [List.mem_cons, forall_eq_or_imp]
      exact ⟨fun _ => trivial, h.ev⟩
  | @clearInc _ n hn =>
    refine ⟨hst, fun m u hu => ?_, fun m u hu hl => ?_, h.wait, h.rnl, h.ev⟩
    · dsimp only at hu
      rw [upd_apply] at hu
      split at hu
      · cases hu
      · exact h.inc m u hu
    · dsimp only at hu
      rw [upd_apply] at hu
      split at hu
      · cases hu
      · exact h.lnk m u hu hl
  | linkTick => exact ⟨hst, h.inc, h.lnk, h.wait, h.rnl, h.ev⟩
  | nodeTick => exact ⟨hst, h.inc, h.lnk, h.wait, h.rnl, h.ev⟩
  | carfollow => exact ⟨hst, h.inc, h.lnk, h.wait, h.rnl, h.ev⟩
  | routing => exact ⟨hst, h.inc, h.lnk, h.wait, h.rnl, h.ev⟩
  | _ => exact ha.elim

/-- Every passage and departure of a time step was prepared in the world before it. -/
theorem tick_events {W W' : World} (hi : Inv W) (hf : W.finalized = true) (hC : CInv 0 W)
    (h : W.tick = .ok W') : ∀ e ∈ W'.trace, e.at = W.T → NewOK W e := by
  obtain ⟨W1, h1, rfl⟩ := tick_ok h
  have h0 : EvI W W := ⟨Static.refl W, fun _ _ h => h, fun _ _ _ _ => rfl, fun _ h => h, rfl,
    fun e he hT => absurd hT (by have := hC.lt e he; omega)⟩
  obtain ⟨W6, hc, hs, h6, rfl⟩ := step_two (Pa := EvI W)
    (Pb := fun X => ∀ e ∈ X.trace, e.at = W.T → NewOK W e) hi hf
    (fun _ _ _ ha hc hp h => h.early ha hc hp) (fun _ _ _ h => h.ev)
    (fun act X Y ha hc hp h => by
      have hs := hp.shape hc.s
      clear hp
      cases hs with
      | endTrip => simp only [List.mem_cons, forall_eq_or_imp]; exact ⟨fun _ => trivial, h⟩
      | startWait => simp only [List.mem_cons, forall_eq_or_imp]; exact ⟨fun _ => trivial, h⟩
      | depart => exact ha.elim
      | move => exact ha.elim
      | linkTick => exact h
      | nodeTick => exact h
      | clearInc => exact h
      | carfollow => exact h
      | routing => exact h
      | record => exact h
      | noWait => exact h
      | advance => exact h
      | event => exact h
      | nextDest => exact h
      | flagEnd => exact h
      | flagAbort => exact h
      | choose => exact h
      | pushInc => exact h) h1 h0
  exact h6

end UX
