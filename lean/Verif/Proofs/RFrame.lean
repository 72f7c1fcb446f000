import Verif.Proofs.Taxi

/-!
# The routing tables change only in the route-choice phase
-/

namespace UX
open World

theorem linkUpdate_R {W W' : World} {l} (h : W.linkUpdate l = .ok W') : W'.R = W.R := by
  obtain ⟨q, rfl⟩ := linkUpdate_ok h
  rfl

theorem nodeUpdate_R {W W' : World} {n} (h : W.nodeUpdate n = .ok W') : W'.R = W.R := by
  obtain ⟨_, _, _, _, rfl⟩ := nodeUpdate_ok h
  rfl

theorem depart_R {W W' : World} {n v l} (h : W.depart n v l = .ok W') : W'.R = W.R := by
  obtain ⟨_, _, _, rfl⟩ := depart_ok h
  rfl

theorem generateLoop_R {n : NodeId} {k : ℕ} {W W' : World} (h : generateLoop n k W = .ok W') :
    W'.R = W.R := by
  induction k generalizing W with
  | zero => cases h; rfl
  | succ k ih =>
    simp only [generateLoop] at h
    split at h
    · cases h; rfl
    · rw [bind_ok] at h
      obtain ⟨cs, -, h⟩ := h
      rw [bind_ok] at h
      obtain ⟨⟨l, W1⟩, h1, h⟩ := h
      obtain ⟨-, r, rfl⟩ := chooseLink_spec h1
      dsimp only at h
      split at h
      · rw [bind_ok] at h
        obtain ⟨W2, h2, h⟩ := h
        rw [ih h, depart_R h2]
      · rw [pure_ok] at h; subst h; rfl

theorem endTrip_R {W W' : World} {v} (h : W.endTrip v = .ok W') : W'.R = W.R := by
  obtain ⟨l, _, _, _, _, _, rfl⟩ := endTrip_ok h
  obtain ⟨_, _, _, _, _, e⟩ := recordLog_frame (W.endTripCore v l) v true
  rw [e]; rfl

theorem endHead_R {W W' : World} {l b} (h : W.endHead l = .ok (W', b)) : W'.R = W.R := by
  unfold endHead at h
  split at h
  · cases h; rfl
  · split at h
    · obtain ⟨W1, h1, h⟩ := map_ok.mp h
      cases h; exact endTrip_R h1
    · cases h; rfl

theorem moveVeh_R {W W' : World} {n v a b} (h : W.moveVeh n v a b = .ok W') : W'.R = W.R := by
  unfold moveVeh at h
  dsimp only at h
  split at h
  · simp [bind, Except.bind, throw, throwThe, MonadExceptOf.throw] at h
  · split at h
    · simp [bind, Except.bind, throw, throwThe, MonadExceptOf.throw] at h
    · rw [bind_ok] at h
      obtain ⟨W2, h2, h⟩ := h
      rw [bind_ok] at h
      obtain ⟨⟨W4, b'⟩, h4, h⟩ := h
      rw [pure_ok] at h
      subst h
      obtain ⟨o, rfl, -⟩ := attachLeader_ok h2
      exact (endHead_R h4).trans rfl

theorem transferOne_R {W W' : World} {n b} (h : transferOne n W b = .ok W') : W'.R = W.R := by
  unfold transferOne at h
  split at h
  · rw [bind_ok] at h
    obtain ⟨vs, -, h⟩ := h
    dsimp only at h
    split at h
    · cases h; rfl
    · rw [bind_ok] at h
      obtain ⟨⟨v, W1⟩, h1, h⟩ := h
      obtain ⟨-, r, e⟩ := pickMerge_spec h1
      have e' : W1.R = W.R := by rw [e]
      clear e
      dsimp only at h
      split at h
      · simp [throw, throwThe, MonadExceptOf.throw] at h
      · rw [moveVeh_R h, e']
  · cases h; rfl

theorem endHeads_R {l : LinkId} {k : ℕ} {W W' : World} (h : endHeads l k W = .ok W') : W'.R = W.R := by
  induction k generalizing W with
  | zero => cases h; rfl
  | succ k ih =>
    simp only [endHeads] at h
    rw [bind_ok] at h
    obtain ⟨⟨W1, b⟩, h1, h⟩ := h
    dsimp only at h
    split at h
    · rw [ih h, endHead_R h1]
    · rw [pure_ok] at h; subst h; exact endHead_R h1

theorem transfer_R {W W' : World} {n} (h : W.transfer n = .ok W') : W'.R = W.R := by
  unfold transfer at h
  rw [bind_ok] at h
  obtain ⟨s0, -, h⟩ := h
  have key : ∀ (sl : List LinkId) (W1 : World), W1.R = W.R →
      (do
        let W2 ← sl.foldlM (transferOne n) W1
        let W3 ← (W2.N.inlinks n).foldlM (fun W l => endHeads l (W.L.lanes l) W) W2
        pure { W3 with N := { W3.N with incoming := upd W3.N.incoming n [] } } : M World) = .ok W' →
      W'.R = W.R := by
    intro sl W1 e h
    rw [bind_ok] at h
    obtain ⟨W2, h2, h⟩ := h
    rw [bind_ok] at h
    obtain ⟨W3, h3, h⟩ := h
    rw [pure_ok] at h
    subst h
    have e2 : W2.R = W.R := foldlM_inv (P := fun X => X.R = W.R)
      (fun s a s' _ hs hf => (transferOne_R hf).trans hs) e h2
    exact foldlM_inv (P := fun X => X.R = W.R)
      (fun s a s' _ hs hf => (endHeads_R hf).trans hs) e2 h3
  split at h
  rename_i sl W1 heq
  refine key sl W1 ?_ h
  split at heq
  · cases heq; rfl
  · cases heq; rfl

theorem carfollow_R {W W' : World} {v} (h : W.carfollow v = .ok W') : W'.R = W.R := by
  obtain ⟨_, _, _, _, rfl, _⟩ := carfollow_ok h
  rfl

theorem addDest_R {W W' : World} {v d k} (h : W.addDest v d k = .ok W') : W'.R = W.R := by
  obtain ⟨_, _, _, _, rfl⟩ := addDest_ok h
  rfl

theorem runEvent_R {W W' : World} {e} (h : W.runEvent e = .ok W') : W'.R = W.R := by
  unfold runEvent at h
  split at h
  · split at h
    · cases h
    · rw [bind_ok] at h
      obtain ⟨W1, h1, h⟩ := h
      dsimp only at h
      split at h
      · simp [bind, Except.bind, throw, throwThe, MonadExceptOf.throw] at h
      · simp only [pure_bind, pure_ok] at h
        subst h
        show W1.R = W.R
        exact addDest_R h1
  · split at h
    · cases h
    · dsimp only at h
      split at h
      · simp [bind, Except.bind, throw, throwThe, MonadExceptOf.throw] at h
      · simp only [pure_bind, pure_ok] at h
        subst h
        rfl

theorem routePrefUpdate_R {W W' : World} {v w} (h : W.routePrefUpdate v w = .ok W') : W'.R = W.R := by
  obtain ⟨_, rfl⟩ := routePrefUpdate_ok h
  rfl

theorem nextLinkChoice_R {W W' : World} {v} (h : W.nextLinkChoice v = .ok W') : W'.R = W.R := by
  obtain ⟨_, _, _, _, rfl, _⟩ := nextLinkChoice_ok h
  rfl

theorem waitEnd_R {W W' : World} {v a} (h : W.waitEnd v a = .ok W') : W'.R = W.R := by
  unfold waitEnd at h
  dsimp only at h
  split at h
  · cases h
  · split at h
    · exact (endTrip_R h).trans rfl
    · cases h; rfl

theorem atLinkEnd_R {W W' : World} {v a} (h : W.atLinkEnd v a = .ok W') : W'.R = W.R := by
  unfold atLinkEnd at h
  dsimp only at h
  split at h
  · split at h
    · exact waitEnd_R h
    · rw [bind_ok] at h
      obtain ⟨W1, h1, h⟩ := h
      rw [bind_ok] at h
      obtain ⟨W2, h2, h⟩ := h
      rw [pure_ok] at h
      subst h
      refine (nextLinkChoice_R h2).trans ((routePrefUpdate_R h1).trans ?_)
      unfold nextDest
      split <;> rfl
  · split at h
    · exact (waitEnd_R h).trans rfl
    · rw [bind_ok] at h
      obtain ⟨W1, h1, h⟩ := h
      rw [pure_ok] at h
      subst h
      show W1.R = W.R
      exact nextLinkChoice_R h1

theorem runUpdate_R {W W' : World} {v} (h : W.runUpdate v = .ok W') : W'.R = W.R := by
  obtain ⟨a, -, ⟨-, rfl⟩ | ⟨-, W2, W3, h2, h3, h4⟩⟩ := runUpdate_ok h
  · rfl
  · have e2 : W2.R = W.R := by
      split at h2
      · exact (runEvent_R h2).trans rfl
      · cases h2; rfl
    have e3 : W3.R = W2.R := by
      split at h3
      · exact routePrefUpdate_R h3
      · cases h3; rfl
    rw [atLinkEnd_R h4, e3, e2]

theorem vehUpdate_R {W W' : World} {v} (h : W.vehUpdate v = .ok W') : W'.R = W.R := by
  unfold vehUpdate at h
  dsimp only at h
  have e : ((W.recordLog v false).startWait v).R = W.R := by
    obtain ⟨_, _, _, _, _, e⟩ := recordLog_frame W v false
    unfold startWait
    split <;> rw [e]
  split at h
  · split at h
    · rw [routePrefUpdate_R h, e]
    · cases h; exact e
  · rw [runUpdate_R h, e]
  · cases h; exact e

/-- Up to the route-choice phase the tables are untouched. -/
theorem Phases.R {W W1 W2 W3 W4 W5 W6 : World} (hp : Phases W W1 W2 W3 W4 W5 W6) : W5.R = W.R := by
  have e1 : W1.R = W.R := foldlM_inv (P := fun X => X.R = W.R)
    (fun s a s' _ hs hf => (linkUpdate_R hf).trans hs) rfl hp.p1
  have e2 : W2.R = W.R := foldlM_inv (P := fun X => X.R = W.R) (fun s a s' _ hs hf => by
    rw [bind_ok] at hf
    obtain ⟨W0, h0, hf⟩ := hf
    rw [nodeUpdate_R hf, generateLoop_R h0, hs]) e1 hp.p2
  have e3 : W3.R = W.R := foldlM_inv (P := fun X => X.R = W.R)
    (fun s a s' _ hs hf => (transfer_R hf).trans hs) e2 hp.p3
  have e4 : W4.R = W.R := foldlM_inv (P := fun X => X.R = W.R)
    (fun s a s' _ hs hf => (carfollow_R hf).trans hs) e3 hp.p4
  exact foldlM_inv (P := fun X => X.R = W.R) (fun s a s' _ hs hf => by
    unfold vehUpdateLiving at hf
    split at hf
    · rw [vehUpdate_R hf, hs]
    · cases hf) e4 hp.p5

end UX
