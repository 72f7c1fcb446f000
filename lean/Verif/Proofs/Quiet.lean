import Verif.Proofs.SafeStep

/-!
# The lane assertion never fires (C07)

A time step may raise other exceptions in odd scenarios, but never the assertion that compares the lane
of an entering vehicle with the lane of its leader.
-/

namespace UX
open World

/-- The computation does not fail with an assertion error. -/
def Quiet {α : Type} (m : M α) : Prop := m ≠ .error .assertionError

theorem quiet_ok {α : Type} {a : α} : Quiet (.ok a : M α) := by simp [Quiet]

theorem quiet_pure {α : Type} {a : α} : Quiet (pure a : M α) := by simp [Quiet, pure, Except.pure]

theorem quiet_bind {α β : Type} {m : M α} {f : α → M β} (h : Quiet m) (hf : ∀ a, m = .ok a → Quiet (f a)) :
    Quiet (m >>= f) := by
  cases m with
  | error e => intro he; exact h (by simpa [bind, Except.bind] using he)
  | ok a => exact hf a rfl

theorem quiet_map {α β : Type} {m : M α} {f : α → β} (h : Quiet m) : Quiet (m.map f) := by
  cases m with
  | error e => intro he; exact h (by simpa [Except.map] using he)
  | ok a => exact quiet_ok

theorem quiet_foldlM {σ α : Type} {P : σ → Prop} {f : σ → α → M σ} {l : List α}
    (h : ∀ s a, a ∈ l → P s → Quiet (f s a) ∧ ∀ s', f s a = .ok s' → P s') {s : σ} (hs : P s) :
    Quiet (l.foldlM f s) := by
  induction l generalizing s with
  | nil => exact quiet_pure
  | cons a t ih =>
    rw [List.foldlM_cons]
    obtain ⟨h1, h2⟩ := h s a (by simp) hs
    exact quiet_bind h1 (fun s' hs' => ih (fun s a ha => h s a (by simp [ha])) (h2 s' hs'))

theorem quiet_mapM {α β : Type} {f : α → M β} {l : List α} (h : ∀ a ∈ l, Quiet (f a)) :
    Quiet (l.mapM f) := by
  induction l with
  | nil => exact quiet_pure
  | cons a t ih =>
    rw [List.mapM_cons]
    exact quiet_bind (h a (by simp)) (fun _ _ =>
      quiet_bind (ih (fun a ha => h a (by simp [ha]))) (fun _ _ => quiet_pure))

theorem quiet_filterE {α : Type} {p : α → M Bool} {l : List α} (h : ∀ a ∈ l, Quiet (p a)) :
    Quiet (filterE p l) := by
  induction l with
  | nil => exact quiet_ok
  | cons a t ih =>
    rw [filterE]
    exact quiet_bind (h a (by simp)) (fun _ _ =>
      quiet_bind (ih (fun a ha => h a (by simp [ha]))) (fun _ _ => quiet_pure))

theorem quiet_choiceU {α : Type} (xs : List α) (r : ℕ) : Quiet (choiceU xs r) := by
  unfold choiceU; split <;> simp [Quiet]

theorem quiet_choiceW {α : Type} (xs : List (ℚ × α)) (r : ℕ) : Quiet (choiceW xs r) := by
  unfold choiceW; split
  · simp [Quiet]
  · exact quiet_choiceU _ _

theorem quiet_argmax {α : Type} (xs : List (ℚ × α)) : Quiet (argmaxFirst xs) := by
  unfold argmaxFirst; split <;> simp [Quiet]

theorem quiet_choose (W : World) (v : VehId) (ls : List LinkId) : Quiet (W.chooseLink v ls) := by
  unfold chooseLink
  refine quiet_bind (quiet_mapM fun l _ => quiet_map ?_) (fun ps _ => ?_)
  · unfold prefOf; repeat' split
    all_goals simp [Quiet]
  · split
    · exact quiet_bind (quiet_argmax _) (fun _ _ => quiet_pure)
    · dsimp only
      split
      · exact quiet_bind (quiet_choiceW _ _) (fun _ _ => quiet_pure)
      · exact quiet_bind (quiet_choiceU _ _) (fun _ _ => quiet_pure)

theorem quiet_pref (W : World) (v : VehId) (w : ℚ) : Quiet (W.routePrefUpdate v w) := by
  unfold routePrefUpdate
  repeat' split
  all_goals simp [Quiet]

theorem quiet_endTrip (W : World) (v : VehId) : Quiet (W.endTrip v) := by
  unfold endTrip
  repeat' split
  all_goals simp [Quiet]

theorem quiet_endHead (W : World) (l : LinkId) : Quiet (W.endHead l) := by
  unfold endHead
  repeat' split
  all_goals first
    | exact quiet_ok
    | exact quiet_map (quiet_endTrip _ _)

/-- The worlds in which the lane bookkeeping is right. -/
def LaneGood (W : World) : Prop := Core W ∧ LInv W

theorem LaneGood.prim {act : Act} {W W' : World} (h : LaneGood W) (hp : Prim act W W') : LaneGood W' :=
  ⟨h.1.prim hp, h.2.prim h.1 hp⟩

theorem LaneGood.star {A : Act → Prop} {W W' : World} (h : LaneGood W) (hp : PStar A W W') : LaneGood W' :=
  hp.inv (P := LaneGood) (fun _ _ _ _ h hp => h.prim hp) h

theorem quiet_depart {W : World} (h : LaneGood W) {n : NodeId} {v : VehId} {t : List VehId} {l : LinkId}
    (hq : W.N.genq n = v :: t) (hl : l < W.nLinks) : Quiet (W.depart n v l) := by
  have hS := h.1.s
  have hw := (hS.genq_mem n v (by simp [hq])).1
  have hvn : v ∉ W.L.vehs l := fun hm => by
    have := (hS.link_run v l (hS.vehs_link l v hm)).1
    rw [hw] at this; cases this
  unfold depart
  split
  · simp [Quiet, throw, throwThe, MonadExceptOf.throw, bind, Except.bind]
  · dsimp only
    refine quiet_bind ?_ (fun _ _ => quiet_pure)
    obtain ⟨W2, h2⟩ := attachLeader_safe (W := { W with
      running := W.running ++ [v]
      N := { W.N with genq := upd W.N.genq n (W.N.genq n).tail }
      V := { W.V with
        state := upd W.V.state v .run
        link := upd W.V.link v (some l)
        x := upd W.V.x v 0
        v := upd W.V.v v (W.L.u l) } }) (v := v) (l := l) (hS.lanes_pos l hl) (h.2.ok l hl) hvn
    rw [h2]; exact quiet_ok

theorem quiet_generate {n : NodeId} (k : ℕ) : ∀ {W : World}, LaneGood W → n < W.nNodes →
    Quiet (generateLoop n k W) := by
  induction k with
  | zero => intro W _ _; exact quiet_ok
  | succ k ih =>
    intro W h hn
    simp only [generateLoop]
    split
    · exact quiet_ok
    · rename_i v t hq
      refine quiet_bind ?_ (fun cs hcs => quiet_bind (quiet_choose _ _ _) (fun x hch => ?_))
      · unfold originCandidates
        repeat' split
        all_goals simp [Quiet]
      · obtain ⟨l, W1⟩ := x
        obtain ⟨hl, r, rfl⟩ := chooseLink_spec hch
        dsimp only
        have h1 : LaneGood { W with rng := r } := h.prim (rng_prim W r)
        split
        · rename_i hce
          have hlt : l < W.nLinks := ((h.1.s.out_iff n l).1 (SInv.mem_originCandidates hcs hl)).1
          refine quiet_bind (quiet_depart h1 (t := t) hq hlt) (fun W2 hd => ?_)
          have hp : Prim (.depart n v l) { W with rng := r } W2 :=
            .depart (t := t) (cs := cs) hn hq hcs hl hce hd
          exact ih (h1.prim hp) (by rw [hp.static.nNodes]; exact hn)
        · exact quiet_pure

theorem quiet_nodeUpdate (W : World) (n : NodeId) : Quiet (W.nodeUpdate n) := by
  unfold nodeUpdate signalControl
  dsimp only
  cases (W.N.signal n)[W.N.phase n]? <;> simp [Quiet]

theorem quiet_attach {W : World} (h : LaneGood W) {n : NodeId} {v : VehId} {t : List VehId} {a b : LinkId}
    (hv : W.L.vehs a = v :: t) (hb : b < W.nLinks) : Quiet ((W.leaveLink n v a b).attachLeader v b) := by
  have hS := h.1.s
  have hla := hS.vehs_link a v (by rw [hv]; simp)
  have hnd : v ∉ t := by have := hS.vehs_nodup a; rw [hv] at this; simp at this; exact this.1
  have hvb : (W.leaveLink n v a b).L.vehs b = upd W.L.vehs a t b := by
    simp [leaveLink, hv]
  have hatt : ∃ W2, (W.leaveLink n v a b).attachLeader v b = .ok W2 := by
    by_cases e : b = a
    · subst e
      have h1 := h.2.ok b hb
      rw [hv] at h1
      have h2 := h1.tail (hS.lanes_pos b hb) (by have := hS.vehs_nodup b; rwa [hv] at this)
      refine attachLeader_safe (W := W.leaveLink n v b b) (hS.lanes_pos b hb)
        (ld := detachL W.V.leader (W.V.follower v)) (fo := W.V.follower) ?_ ?_
      · rw [hvb, upd_same]; exact h2
      · rw [hvb, upd_same]; exact hnd
    · refine attachLeader_safe (W := W.leaveLink n v a b) (hS.lanes_pos b hb) (ld := W.V.leader)
        (fo := W.V.follower) ?_ ?_
      · rw [hvb, upd_ne _ _ e]; exact h.2.ok b hb
      · rw [hvb, upd_ne _ _ e]
        intro hm
        have := (hS.vehs_link b v hm).symm.trans hla
        simp at this; exact e this
  obtain ⟨W2, h2⟩ := hatt
  rw [h2]; exact quiet_ok

theorem quiet_move {W : World} (h : LaneGood W) {n : NodeId} {v : VehId} {t : List VehId} {a b : LinkId}
    (hv : W.L.vehs a = v :: t) (hb : b < W.nLinks) : Quiet (W.moveVeh n v a b) := by
  unfold moveVeh
  by_cases hc : W.L.cumDep a = [] ∨ W.L.cumArr b = []
  · rw [if_pos hc]
    simp [Quiet, throw, throwThe, MonadExceptOf.throw, bind, Except.bind]
  · rw [if_neg hc]
    dsimp only
    split
    · simp [Quiet, throw, throwThe, MonadExceptOf.throw, bind, Except.bind]
    · exact quiet_bind (quiet_attach h hv hb) (fun _ _ => quiet_bind (quiet_endHead _ _) (fun _ _ => quiet_pure))

theorem quiet_pickMerge (W : World) (vs : List VehId) : Quiet (W.pickMerge vs) := by
  unfold pickMerge
  dsimp only
  split
  · exact quiet_map (quiet_argmax _)
  · exact quiet_map (quiet_choiceW _ _)

theorem quiet_transferOne {n : NodeId} {W : World} {b : LinkId} (h : LaneGood W) :
    Quiet (transferOne n W b) := by
  unfold transferOne
  split
  · refine quiet_bind (quiet_filterE fun v _ => ?_) (fun vs hvs => ?_)
    · unfold eligible
      repeat' split
      all_goals simp [Quiet]
    · split
      · exact quiet_pure
      · refine quiet_bind (quiet_pickMerge _ _) (fun x hp => ?_)
        obtain ⟨v, W1⟩ := x
        obtain ⟨hv, r, rfl⟩ := pickMerge_spec hp
        rw [filterE_ok hvs] at hv
        obtain ⟨hinc, hel⟩ := hv
        unfold eligible at hel
        dsimp only
        cases hlv : W.V.link v with
        | none => rw [hlv] at hel; simp at hel
        | some a =>
          rw [hlv] at hel
          dsimp only at hel ⊢
          split at hel
          · simp at hel
          · rename_i hd t hvt
            simp only [Except.ok.injEq, Bool.and_eq_true, Bool.or_eq_true, decide_eq_true_eq] at hel
            obtain ⟨⟨⟨rfl, hrnl⟩, hsig⟩, hco⟩ := hel
            exact quiet_move (h.prim (rng_prim W r)) (t := t) hvt (h.1.s.rnl_lt _ _ hrnl)
  · exact quiet_ok

theorem quiet_endHeads {l : LinkId} (k : ℕ) : ∀ {W : World}, Quiet (endHeads l k W) := by
  induction k with
  | zero => intro W; exact quiet_ok
  | succ k ih =>
    intro W
    simp only [endHeads]
    refine quiet_bind (quiet_endHead _ _) (fun x _ => ?_)
    obtain ⟨W1, b⟩ := x
    dsimp only
    split
    · exact ih
    · exact quiet_pure

theorem quiet_transfer {n : NodeId} {W : World} (h : LaneGood W) (hn : n < W.nNodes) : Quiet (W.transfer n) := by
  unfold transfer
  refine quiet_bind ?_ (fun sl _ => ?_)
  · unfold transferSlots
    split <;> simp [Quiet]
  · have key : ∀ (slots : List LinkId) (r : ℕ → ℕ), Quiet (do
        let W2 ← slots.foldlM (transferOne n) { W with rng := r }
        let W3 ← (W2.N.inlinks n).foldlM (fun W l => endHeads l (W.L.lanes l) W) W2
        pure { W3 with N := { W3.N with incoming := upd W3.N.incoming n [] } } : M World) := by
      intro slots r
      refine quiet_bind ?_ (fun W2 _ => quiet_bind ?_ (fun _ _ => quiet_pure))
      · refine quiet_foldlM (P := fun X => LaneGood X ∧ n < X.nNodes) ?_ ⟨h.prim (rng_prim W r), hn⟩
        rintro X b - ⟨hX, hnX⟩
        refine ⟨quiet_transferOne hX, fun X' hX' => ?_⟩
        have := transferOne_star hX.1 hnX hX'
        exact ⟨hX.star this, by rw [this.static.nNodes]; exact hnX⟩
      · exact quiet_foldlM (P := fun _ => True) (fun _ _ _ _ => ⟨quiet_endHeads _, fun _ _ => trivial⟩) trivial
    split
    rename_i x slots W1 heq
    split at heq
    · simp only [Prod.mk.injEq] at heq
      obtain ⟨rfl, rfl⟩ := heq
      exact key _ W.rng
    · simp only [Prod.mk.injEq] at heq
      obtain ⟨rfl, rfl⟩ := heq
      exact key _ _

theorem quiet_addDest (W : World) (v : VehId) (d : NodeId) (k : Option ℕ) : Quiet (W.addDest v d k) := by
  unfold addDest
  repeat' split
  all_goals first
    | exact quiet_pref _ _ _
    | simp [Quiet]

theorem quiet_event (W : World) (e : TaxiEvent) : Quiet (W.runEvent e) := by
  unfold runEvent
  split
  · split
    · simp [Quiet]
    · refine quiet_bind (quiet_addDest _ _ _ _) (fun _ _ => ?_)
      dsimp only
      split
      · simp [Quiet, throw, throwThe, MonadExceptOf.throw, bind, Except.bind]
      · exact quiet_pure
  · split
    · simp [Quiet]
    · dsimp only
      split
      · simp [Quiet, throw, throwThe, MonadExceptOf.throw, bind, Except.bind]
      · exact quiet_pure

theorem quiet_next (W : World) (v : VehId) : Quiet (W.nextLinkChoice v) := by
  unfold nextLinkChoice
  dsimp only
  repeat' split
  all_goals first
    | exact quiet_bind (quiet_choose _ _ _) (fun _ _ => quiet_pure)
    | simp [Quiet]

theorem quiet_waitEnd (W : World) (v : VehId) (a : LinkId) : Quiet (W.waitEnd v a) := by
  unfold waitEnd
  dsimp only
  repeat' split
  all_goals first
    | exact quiet_endTrip _ _
    | simp [Quiet]

theorem quiet_atLinkEnd (W : World) (v : VehId) (a : LinkId) : Quiet (W.atLinkEnd v a) := by
  unfold atLinkEnd
  dsimp only
  repeat' split
  all_goals first
    | exact quiet_waitEnd _ _ _
    | exact quiet_bind (quiet_pref _ _ _) (fun _ _ => quiet_bind (quiet_next _ _) (fun _ _ => quiet_pure))
    | exact quiet_bind (quiet_next _ _) (fun _ _ => quiet_pure)

theorem quiet_vehUpdate (W : World) (v : VehId) : Quiet (W.vehUpdateLiving v) := by
  unfold vehUpdateLiving vehUpdate runUpdate
  split
  · dsimp only
    split
    · split
      · exact quiet_pref _ _ _
      · exact quiet_ok
    · split
      · simp [Quiet]
      · split
        · have key : ∀ (X : World) (a : LinkId), Quiet (do
              let W3 ← if X.cfg.gradual then X.routePrefUpdate v 1 else pure X
              W3.atLinkEnd v a : M World) := by
            intro X a
            dsimp only
            split
            · exact quiet_bind (quiet_pref _ _ _) (fun _ _ => quiet_atLinkEnd _ _ _)
            · exact quiet_bind quiet_pure (fun _ _ => quiet_atLinkEnd _ _ _)
          split
          · exact quiet_bind (quiet_event _ _) (fun _ _ => key _ _)
          · exact quiet_bind quiet_pure (fun _ _ => key _ _)
        · exact quiet_ok
    · exact quiet_ok
  · simp [Quiet]

theorem quiet_routeSearch (W : World) : Quiet W.routeSearchAll := by
  unfold routeSearchAll adjMatrix
  refine quiet_bind (quiet_foldlM (P := fun _ => True) (fun _ _ _ _ => ⟨?_, fun _ _ => trivial⟩) trivial)
    (fun _ _ => quiet_pure)
  unfold adjStep
  split <;> simp [Quiet]

theorem quiet_routeStep (W : World) : Quiet W.routeStep := by
  unfold routeStep
  split
  · dsimp only
    split
    · exact quiet_bind (quiet_routeSearch _) (fun _ _ => quiet_pure)
    · exact quiet_bind quiet_pure (fun _ _ => quiet_pure)
  · split
    · exact quiet_bind (quiet_routeSearch _) (fun _ _ =>
        quiet_foldlM (P := fun _ => True) (fun _ _ _ _ => ⟨quiet_pref _ _ _, fun _ _ => trivial⟩) trivial)
    · exact quiet_pure

theorem quiet_linkUpdate (W : World) (l : LinkId) : Quiet (W.linkUpdate l) := by
  unfold linkUpdate newTtInstant
  dsimp only
  split
  · rename_i e he
    intro h
    simp only [Except.error.injEq] at h
    subst h
    repeat' split at he
    all_goals simp at he
  · exact quiet_ok

theorem quiet_step {W : World} (h : LaneGood W) : Quiet W.step := by
  unfold step
  refine quiet_bind (quiet_foldlM (P := fun _ => True) (fun _ _ _ _ => ⟨quiet_linkUpdate _ _, fun _ _ => trivial⟩)
    trivial) (fun W1 h1 => ?_)
  have g1 : LaneGood W1 := h.star (links_star h1)
  refine quiet_bind (quiet_foldlM (P := fun X => LaneGood X ∧ X.nNodes = W1.nNodes) ?_ ⟨g1, rfl⟩) (fun W2 h2 => ?_)
  · rintro X n hn ⟨hX, hN⟩
    rw [List.mem_range, ← hN] at hn
    refine ⟨quiet_bind (quiet_generate _ hX hn) (fun _ _ => quiet_nodeUpdate _ _), fun X' hX' => ?_⟩
    rw [bind_ok] at hX'
    obtain ⟨Y, k1, k2⟩ := hX'
    have s1 := generateLoop_star hn k1
    have hp : Prim (.nodeTick n) Y X' := .nodeTick (by rw [s1.static.nNodes]; exact hn) k2
    exact ⟨(hX.star s1).prim hp, by rw [hp.static.nNodes, s1.static.nNodes, hN]⟩
  have g2 : LaneGood W2 := g1.star (gen_star h2)
  refine quiet_bind (quiet_foldlM (P := fun X => LaneGood X ∧ X.nNodes = W2.nNodes) ?_ ⟨g2, rfl⟩) (fun W3 _ => ?_)
  · rintro X n hn ⟨hX, hN⟩
    rw [List.mem_range, ← hN] at hn
    refine ⟨quiet_transfer hX hn, fun X' hX' => ?_⟩
    have s1 := transfer_star hX.1 hn hX'
    exact ⟨hX.star s1, by rw [s1.static.nNodes, hN]⟩
  refine quiet_bind (quiet_foldlM (P := fun _ => True) (fun X v _ _ => ⟨?_, fun _ _ => trivial⟩) trivial)
    (fun W4 _ => ?_)
  · unfold carfollow
    dsimp only
    repeat' split
    all_goals simp [Quiet]
  refine quiet_bind (quiet_foldlM (P := fun _ => True) (fun _ _ _ _ => ⟨quiet_vehUpdate _ _, fun _ _ => trivial⟩)
    trivial) (fun W5 _ => quiet_bind (quiet_routeStep _) (fun _ _ => quiet_pure))

end UX
