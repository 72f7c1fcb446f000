import Verif.Proofs.FInv

/-! Every simulation step is a sequence of primitives. -/

namespace UX
open World Relation

/-- Finitely many primitives of the kinds `A`. -/
def PStar (A : Act → Prop) : World → World → Prop :=
  ReflTransGen (fun W W' => ∃ a, A a ∧ Prim a W W')

theorem PStar.refl {A W} : PStar A W W := ReflTransGen.refl

theorem PStar.trans {A W1 W2 W3} (h1 : PStar A W1 W2) (h2 : PStar A W2 W3) : PStar A W1 W3 :=
  ReflTransGen.trans h1 h2

theorem PStar.one {A : Act → Prop} {a W W'} (ha : A a) (h : Prim a W W') : PStar A W W' :=
  ReflTransGen.single ⟨a, ha, h⟩

theorem PStar.tail {A : Act → Prop} {a W W1 W'} (h1 : PStar A W W1) (ha : A a) (h : Prim a W1 W') :
    PStar A W W' :=
  ReflTransGen.tail h1 ⟨a, ha, h⟩

theorem PStar.mono {A B : Act → Prop} {W W'} (hAB : ∀ a, A a → B a) (h : PStar A W W') :
    PStar B W W' :=
  Relation.ReflTransGen.mono (fun _ _ (⟨a, ha, hp⟩ : ∃ a, A a ∧ Prim a _ _) => ⟨a, hAB a ha, hp⟩) _ _ h

theorem PStar.inv {A : Act → Prop} {P : World → Prop} {W W'}
    (hP : ∀ a W W', A a → P W → Prim a W W' → P W') (h : PStar A W W') (h0 : P W) : P W' := by
  induction h with
  | refl => exact h0
  | tail _ hp ih => obtain ⟨a, ha, hp⟩ := hp; exact hP a _ _ ha ih hp

/-- The invariants needed to decompose a step. -/
structure Core (W : World) : Prop where
  s : SInv W
  f : FInv W
  fin : W.finalized = true

theorem Core.prim {W W' act} (h : Core W) (hp : Prim act W W') : Core W' :=
  ⟨h.s.prim h.fin hp, h.f.prim h.s hp, hp.static.finalized.trans h.fin⟩

theorem Core.star {A W W'} (h : Core W) (hp : PStar A W W') : Core W' :=
  hp.inv (P := Core) (fun _ _ _ _ h hp => h.prim hp) h

theorem PStar.static {A W W'} (h : PStar A W W') : Static W W' :=
  h.inv (P := Static W) (fun _ _ _ _ h hp => h.trans hp.static) (Static.refl W)

/-- Loop rule for decomposition. -/
theorem PStar.fold {α : Type} {A : Act → Prop} {f : World → α → M World} {l : List α} {W W' : World}
    (hf : ∀ W a W', a ∈ l → Core W → f W a = .ok W' → PStar A W W')
    (h0 : Core W) (h : l.foldlM f W = .ok W') : PStar A W W' := by
  have := foldlM_inv (P := fun W1 => Core W1 ∧ PStar A W W1)
    (fun s a s' ha ⟨hc, hs⟩ hfa => by
      have := hf s a s' ha hc hfa
      exact ⟨hc.star this, hs.trans this⟩) ⟨h0, PStar.refl⟩ h
  exact this.2

/-! ### Links, generation, node update -/

def isLinkTick : Act → Prop | .linkTick _ => True | _ => False

theorem links_star {W W' : World} (h : (List.range W.nLinks).foldlM linkUpdate W = .ok W') :
    PStar isLinkTick W W' := by
  have := foldlM_inv (P := fun W1 => W1.nLinks = W.nLinks ∧ PStar isLinkTick W W1)
    (fun s a s' ha ⟨hc, hs⟩ hfa => by
      have hp : Prim (.linkTick a) s s' := .linkTick (by rw [hc]; simpa using ha) hfa
      exact ⟨hp.static.nLinks.trans hc, hs.tail (a := .linkTick a) trivial hp⟩)
    ⟨rfl, PStar.refl⟩ h
  exact this.2

def isGen : Act → Prop | .depart _ _ _ => True | .routing => True | .nodeTick _ => True | _ => False

theorem rng_prim (W : World) (r : ℕ → ℕ) : Prim .routing W { W with rng := r } :=
  .routing (W := W) (rng := r) (R := W.R) (pref := W.V.pref)

theorem generateLoop_star {n : NodeId} {k : ℕ} {W W' : World} (hn : n < W.nNodes)
    (h : generateLoop n k W = .ok W') : PStar isGen W W' := by
  induction k generalizing W with
  | zero => simp [generateLoop] at h; subst h; exact PStar.refl
  | succ k ih =>
    simp only [generateLoop] at h
    split at h
    · simp at h; subst h; exact PStar.refl
    · rename_i v t hq
      rw [bind_ok] at h
      obtain ⟨cs, hcs, h⟩ := h
      rw [bind_ok] at h
      obtain ⟨⟨l, W1⟩, hch, h⟩ := h
      obtain ⟨hl, r, rfl⟩ := chooseLink_spec hch
      dsimp only at h
      have hr := rng_prim W r
      split at h
      · rename_i hce
        rw [bind_ok] at h
        obtain ⟨W2, hd, h⟩ := h
        have hp : Prim (.depart n v l) { W with rng := r } W2 :=
          .depart (t := t) (cs := cs) hn hq hcs hl hce hd
        have h2 := (PStar.one (A := isGen) (a := .routing) trivial hr).tail
          (a := .depart n v l) trivial hp
        exact h2.trans (ih (by rw [h2.static.nNodes]; exact hn) h)
      · simp at h; subst h; exact PStar.one (a := .routing) trivial hr

theorem gen_star {W W' : World}
    (h : (List.range W.nNodes).foldlM (fun W n => do (← W.generate n).nodeUpdate n) W = .ok W') :
    PStar isGen W W' := by
  have := foldlM_inv (P := fun W1 => W1.nNodes = W.nNodes ∧ PStar isGen W W1)
    (fun s n s' hn ⟨hc, hs⟩ hfa => by
      have hn' : n < s.nNodes := by rw [hc]; simpa using hn
      simp only [bind_ok] at hfa
      obtain ⟨s1, h1, h2⟩ := hfa
      have hg := generateLoop_star hn' h1
      have hp : Prim (.nodeTick n) s1 s' := .nodeTick (by rw [hg.static.nNodes]; exact hn') h2
      have := hg.tail (a := .nodeTick n) trivial hp
      exact ⟨this.static.nNodes.trans hc, hs.trans this⟩)
    ⟨rfl, PStar.refl⟩ h
  exact this.2

/-! ### Transfer -/

theorem recordLog_LN (W : World) (L' : LinkF) (N' : NodeF) (v : VehId) (e : Bool) :
    ({ W with L := L', N := N' } : World).recordLog v e =
      { W.recordLog v e with L := L', N := N' } := by
  have hrow : ({ W with L := L', N := N' } : World).recordRow v e =
      { W.recordRow v e with L := L', N := N' } := by
    unfold recordRow
    split
    · rename_i h
      have h' : W.logDue e = true := h
      rw [if_pos h']
      dsimp only
      cases W.V.state v <;> rfl
    · rename_i h
      have h' : ¬ W.logDue e = true := h
      rw [if_neg h']
  unfold recordLog
  rw [hrow]
  unfold recordRoute
  dsimp only
  split <;> rfl

theorem moveVeh_split {W W' : World} {n v a b t} (hS : SInv W) (hl : W.V.link v = some a)
    (hv : W.L.vehs a = v :: t) (h : W.moveVeh n v a b = .ok W') :
    ∃ W1, W.moveCore n v a b = .ok W1 ∧ (W' = W1 ∨
      ∃ w s, W1.L.vehs a = w :: s ∧ W1.V.link w = some a ∧ W1.V.flagEnd w = true ∧
        W1.endTrip w = .ok W') := by
  unfold moveVeh at h
  unfold moveCore
  dsimp only at h ⊢
  split at h
  · simp [bind, Except.bind, throw, throwThe, MonadExceptOf.throw] at h
  · rename_i h1
    rw [if_neg h1]
    split at h
    · simp [bind, Except.bind, throw, throwThe, MonadExceptOf.throw] at h
    · rename_i h2
      rw [if_neg h2]
      rw [bind_ok] at h
      obtain ⟨W2, ha, h⟩ := h
      rw [ha]
      rw [bind_ok] at h
      obtain ⟨⟨W4, b4⟩, he, h⟩ := h
      simp only [pure_ok] at h
      refine ⟨_, rfl, ?_⟩
      obtain ⟨o, rfl, ho⟩ := attachLeader_ok ha
      generalize ((W.leaveLink n v a b).attachTo v b o).carryOver v a b = q at he ⊢
      unfold endHead at he
      have hva : (((W.leaveLink n v a b).attachTo v b o).placeOn v q).L.vehs a = t := by
        simp [leaveLink, attachTo, placeOn, hv]
      rw [hva] at he
      cases t with
      | nil =>
        simp only [Except.ok.injEq, Prod.mk.injEq] at he
        obtain ⟨rfl, -⟩ := he
        exact .inl h.symm
      | cons w s =>
        simp only at he
        split at he
        · rename_i hfl
          rw [map_ok] at he
          obtain ⟨W5, he, h5⟩ := he
          simp only [Prod.mk.injEq] at h5
          obtain ⟨rfl, -⟩ := h5
          right
          have hwv : w ≠ v := by
            have := hS.vehs_nodup a; rw [hv] at this; simp at this; tauto
          have hlw : W.V.link w = some a := hS.vehs_link a w (by rw [hv]; simp)
          have hlw3 : (((W.leaveLink n v a b).attachTo v b o).placeOn v q).V.link w = some a := by
            simp [leaveLink, attachTo, placeOn, upd_ne _ _ hwv, hlw]
          obtain ⟨l', hl', hc, hve, hr, hli, rfl⟩ := endTrip_ok he
          obtain rfl : a = l' := by rw [hlw3] at hl'; simpa using hl'
          generalize hW3 : (((W.leaveLink n v a b).attachTo v b o).placeOn v q) = W3 at *
          refine ⟨w, if a = b then s ++ [v] else s, ?_, hlw3, hfl, ?_⟩
          · by_cases hab : a = b
            · subst hab; simp [hva]
            · simp only [upd_apply, if_neg hab, hva]
          · unfold World.endTrip
            dsimp only
            rw [hlw3]
            dsimp only
            have hne : upd W3.L.vehs b (W3.L.vehs b ++ [v]) a ≠ [] := by
              by_cases hab : a = b
              · subst hab; simp
              · simp only [upd_apply, if_neg hab]; exact hve
            rw [if_neg (by simp only [not_or]; exact ⟨hc, hne⟩)]
            rw [if_neg (by simp only [not_or, not_not]; exact ⟨hr, hli⟩)]
            rw [← h]
            congr 1
            obtain ⟨log, s', c', lt, lo, hrec⟩ := recordLog_frame (W3.endTripCore w a) w true
            have hvehs : upd (upd W3.L.vehs b (W3.L.vehs b ++ [v])) a
                (upd W3.L.vehs b (W3.L.vehs b ++ [v]) a).tail =
              upd (upd W3.L.vehs a (W3.L.vehs a).tail) b
                ((upd W3.L.vehs a (W3.L.vehs a).tail) b ++ [v]) := by
              funext j
              by_cases hab : a = b
              · subst hab
                by_cases hj : j = a
                · subst hj; simp [hva]
                · simp [upd_apply, hj]
              · have hba : b ≠ a := fun h => hab h.symm
                simp only [upd_apply, if_neg hab, if_neg hba]
                by_cases hj : j = a
                · subst hj; simp [hab]
                · simp [hj]
            have := recordLog_LN (W3.endTripCore w a)
              ({ (W3.endTripCore w a).L with
                  vehs := upd (W3.endTripCore w a).L.vehs b ((W3.endTripCore w a).L.vehs b ++ [v]) })
              ({ W3.N with incoming := upd W3.N.incoming n ((W3.N.incoming n).erase v) }) w true
            rw [hrec] at this ⊢
            refine Eq.trans ?_ this
            congr 1
            unfold endTripCore
            dsimp only
            rw [hvehs]
            rfl
        · simp only [Except.ok.injEq, Prod.mk.injEq] at he
          obtain ⟨rfl, -⟩ := he
          exact .inl h.symm


theorem pickMerge_spec {W W1 : World} {vs : List VehId} {v : VehId}
    (h : W.pickMerge vs = .ok (v, W1)) : v ∈ vs ∧ ∃ r, W1 = { W with rng := r } := by
  unfold pickMerge at h
  dsimp only at h
  have hmem : ∀ (b : Prop) [Decidable b] (q : ℚ) (u : VehId),
      (q, u) ∈ (if b then vs.map (fun v => ((1 : ℚ), v)) else vs.map (fun v => (W.mergeOf v, v))) →
      u ∈ vs := by
    intro b _ q u hu
    split at hu
    · simp at hu; exact hu.1
    · simp at hu; grind
  split at h
  · rw [map_ok] at h
    obtain ⟨u, h1, h2⟩ := h
    simp only [Prod.mk.injEq] at h2
    obtain ⟨rfl, rfl⟩ := h2
    obtain ⟨q, hq⟩ := argmaxFirst_mem h1
    exact ⟨hmem _ _ _ hq, W.rng, rfl⟩
  · rw [map_ok] at h
    obtain ⟨u, h1, h2⟩ := h
    simp only [Prod.mk.injEq] at h2
    obtain ⟨rfl, rfl⟩ := h2
    obtain ⟨q, hq, -⟩ := choiceW_mem h1
    obtain ⟨⟨q', u'⟩, hq', he⟩ := List.mem_map.mp hq
    simp only [Prod.mk.injEq] at he
    obtain ⟨-, rfl⟩ := he
    exact ⟨hmem _ _ _ hq', _, rfl⟩

theorem endHead_spec {W W' : World} {l : LinkId} {b : Bool} (hS : SInv W)
    (h : W.endHead l = .ok (W', b)) : W' = W ∨ ∃ v, Prim (.endTrip v l) W W' := by
  unfold endHead at h
  split at h
  · simp at h; exact .inl h.1.symm
  · rename_i v t hv
    split at h
    · rename_i hf
      rw [map_ok] at h
      obtain ⟨W1, h1, h2⟩ := h
      simp at h2
      obtain ⟨rfl, -⟩ := h2
      exact .inr ⟨v, .endTrip (hS.vehs_link l v (by rw [hv]; simp)) hv hf h1⟩
    · simp at h; exact .inl h.1.symm

/-- One slot of the transfer loop: nothing, or one vehicle enters `b` and possibly the vehicle behind
it ends its trip. -/
theorem transferOne_spec {n : NodeId} {W W' : World} {b : LinkId} (hc : Core W) (hn : n < W.nNodes)
    (h : transferOne n W b = .ok W') :
    W' = W ∨ ∃ r v a W1, Prim (.move n v a b) { W with rng := r } W1 ∧
      (W' = W1 ∨ ∃ w, Prim (.endTrip w a) W1 W') := by
  unfold transferOne at h
  split at h
  · rename_i hg
    simp only [Bool.and_eq_true, decide_eq_true_eq] at hg
    rw [bind_ok] at h
    obtain ⟨vs, hvs, h⟩ := h
    split at h
    · simp at h; exact .inl h.symm
    · rw [bind_ok] at h
      obtain ⟨⟨v, W1⟩, hp, h⟩ := h
      obtain ⟨hv, r, rfl⟩ := pickMerge_spec hp
      rw [filterE_ok hvs] at hv
      obtain ⟨hinc, hel⟩ := hv
      dsimp only at h
      unfold eligible at hel
      split at h
      · simp at h
      · rename_i a ha
        have ha' : W.V.link v = some a := ha
        rw [ha'] at hel
        dsimp only at hel
        split at hel
        · simp at hel
        · rename_i hd t hvt
          simp only [Except.ok.injEq, Bool.and_eq_true, Bool.or_eq_true, decide_eq_true_eq] at hel
          obtain ⟨⟨⟨rfl, hrnl⟩, hsig⟩, hco⟩ := hel
          have hc1 : Core { W with rng := r } := hc.prim (rng_prim W r)
          obtain ⟨W2, h2, h3⟩ := moveVeh_split hc1.s ha hvt h
          refine .inr ⟨r, hd, a, W2, .move hn hinc ha hvt hrnl hsig hco hg.2 hg.1 h2, ?_⟩
          rcases h3 with h3 | ⟨w, s, h4, h5, h6, h7⟩
          · exact .inl h3
          · exact .inr ⟨w, .endTrip h5 h4 h6 h7⟩
  · simp at h; exact .inl h.symm

def isTr (n : NodeId) : Act → Prop
  | .move m _ _ _ => m = n | .endTrip _ _ => True | .routing => True | .clearInc m => m = n
  | _ => False

theorem transferOne_star {n : NodeId} {W W' : World} {b : LinkId} (hc : Core W) (hn : n < W.nNodes)
    (h : transferOne n W b = .ok W') : PStar (isTr n) W W' := by
  rcases transferOne_spec hc hn h with rfl | ⟨r, v, a, W1, hm, h2⟩
  · exact PStar.refl
  · have h1 := (PStar.one (A := isTr n) (a := .routing) trivial (rng_prim W r)).tail
      (a := .move n v a b) rfl hm
    rcases h2 with rfl | ⟨w, h2⟩
    · exact h1
    · exact h1.tail (a := .endTrip w a) trivial h2

def isEnd : Act → Prop | .endTrip _ _ => True | _ => False

theorem endHeads_star {l : LinkId} {k : ℕ} {W W' : World} (hc : Core W)
    (h : endHeads l k W = .ok W') : PStar isEnd W W' := by
  induction k generalizing W with
  | zero => simp [endHeads] at h; subst h; exact PStar.refl
  | succ k ih =>
    simp only [endHeads] at h
    rw [bind_ok] at h
    obtain ⟨⟨W1, b⟩, h1, h⟩ := h
    have hs : PStar isEnd W W1 := by
      rcases endHead_spec hc.s h1 with rfl | ⟨v, hp⟩
      · exact PStar.refl
      · exact PStar.one (a := .endTrip v l) trivial hp
    dsimp only at h
    split at h
    · exact hs.trans (ih (hc.star hs) h)
    · simp at h; subst h; exact hs

/-- `transfer` at node `n`: slots, then trip ends at all inlinks, then the list is cleared. -/
theorem transfer_spec {n : NodeId} {W W' : World} (hc : Core W) (hn : n < W.nNodes)
    (h : W.transfer n = .ok W') :
    ∃ (slots0 slots : List LinkId) (r : ℕ → ℕ) (W2 W3 : World), W.transferSlots n = .ok slots0 ∧ slots.Perm slots0 ∧
      slots.foldlM (transferOne n) { W with rng := r } = .ok W2 ∧
      PStar isEnd W2 W3 ∧
      W' = { W3 with N := { W3.N with incoming := upd W3.N.incoming n [] } } ∧
      Core W2 ∧ Core W3 := by
  unfold transfer at h
  rw [bind_ok] at h
  obtain ⟨slots0, h0, h⟩ := h
  obtain ⟨slots, r, hperm, h⟩ : ∃ (slots : List LinkId) (r : ℕ → ℕ), slots.Perm slots0 ∧ (do
      let W2 ← slots.foldlM (transferOne n) { W with rng := r }
      let W3 ← (W2.N.inlinks n).foldlM (fun W l => endHeads l (W.L.lanes l) W) W2
      pure { W3 with N := { W3.N with incoming := upd W3.N.incoming n [] } } : M World) = .ok W' := by
    split at h
    rename_i x slots W1 heq
    split at heq
    · simp only [Prod.mk.injEq] at heq
      obtain ⟨rfl, rfl⟩ := heq
      exact ⟨_, W.rng, List.Perm.refl _, h⟩
    · simp only [Prod.mk.injEq] at heq
      obtain ⟨rfl, rfl⟩ := heq
      exact ⟨_, _, shuffle_perm _ _, h⟩
  rw [bind_ok] at h
  obtain ⟨W2, h2, h⟩ := h
  rw [bind_ok] at h
  obtain ⟨W3, h3, h⟩ := h
  simp only [pure_ok] at h
  have hc1 : Core { W with rng := r } := hc.prim (rng_prim W r)
  have hs : PStar (isTr n) { W with rng := r } W2 := by
    have := foldlM_inv (P := fun W1 => Core W1 ∧ n < W1.nNodes ∧ PStar (isTr n) { W with rng := r } W1)
      (fun s a s' ha ⟨hc, hn, hs⟩ hfa => by
        have := transferOne_star hc hn hfa
        exact ⟨hc.star this, by rw [this.static.nNodes]; exact hn, hs.trans this⟩)
      ⟨hc1, hn, PStar.refl⟩ h2
    exact this.2.2
  have hc2 := hc1.star hs
  have hs3 : PStar isEnd W2 W3 := PStar.fold (fun W a W' _ hc h => endHeads_star hc h) hc2 h3
  exact ⟨slots0, slots, r, W2, W3, h0, hperm, h2, hs3, h.symm, hc2, hc2.star hs3⟩

theorem transfer_star {n : NodeId} {W W' : World} (hc : Core W) (hn : n < W.nNodes)
    (h : W.transfer n = .ok W') : PStar (isTr n) W W' := by
  obtain ⟨slots0, slots, r, W2, W3, h0, hperm, h2, hs3, rfl, hc2, hc3⟩ := transfer_spec hc hn h
  have hc1 : Core { W with rng := r } := hc.prim (rng_prim W r)
  have hs : PStar (isTr n) { W with rng := r } W2 := by
    have := foldlM_inv (P := fun W1 => Core W1 ∧ n < W1.nNodes ∧ PStar (isTr n) { W with rng := r } W1)
      (fun s a s' ha ⟨hc, hn, hs⟩ hfa => by
        have := transferOne_star hc hn hfa
        exact ⟨hc.star this, by rw [this.static.nNodes]; exact hn, hs.trans this⟩)
      ⟨hc1, hn, PStar.refl⟩ h2
    exact this.2.2
  have hn3 : n < W3.nNodes := by rw [hs3.static.nNodes, hs.static.nNodes]; exact hn
  refine ((PStar.one (a := .routing) trivial (rng_prim W r)).trans hs).trans ?_
  refine (hs3.mono (fun a ha => ?_)).tail (a := .clearInc n) rfl (.clearInc hn3)
  cases a <;> simp [isEnd, isTr] at ha ⊢

/-- After the transfer of node `n`: its list is empty, other lists are unchanged. -/
theorem isTr_incoming {n : NodeId} {W W' : World} (h : PStar (isTr n) W W') :
    ∀ m, m ≠ n → W'.N.incoming m = W.N.incoming m := by
  intro m hm
  refine h.inv (P := fun W1 => W1.N.incoming m = W.N.incoming m) ?_ rfl
  intro a W1 W2 ha h1 hp
  rw [← h1]
  cases hp <;> simp only [isTr] at ha
  case move h1 =>
    subst ha
    obtain ⟨-, -, -, o, ho, rfl⟩ := moveCore_ok h1
    simp only [moveRes, leaveLink, attachTo, placeOn, upd_apply, if_neg hm]
  case endTrip h1 =>
    obtain ⟨l', hl', -, -, h1, h2, rfl⟩ := endTrip_ok h1
    obtain ⟨log, s, c, lt, lo, hr⟩ := recordLog_frame (W1.endTripCore _ l') _ true
    rw [hr]; rfl
  case clearInc =>
    subst ha
    simp only [upd_apply, if_neg hm]
  case routing => rfl

def isTrAny : Act → Prop
  | .move _ _ _ _ => True | .endTrip _ _ => True | .routing => True | .clearInc _ => True
  | _ => False

theorem isTr_any {n : NodeId} {W W' : World} (h : PStar (isTr n) W W') : PStar isTrAny W W' :=
  h.mono (fun a ha => by cases a <;> simp [isTr, isTrAny] at ha ⊢)

theorem transfers_star {W W' : World} (hc : Core W)
    (h : (List.range W.nNodes).foldlM transfer W = .ok W') :
    PStar isTrAny W W' ∧ ∀ n, W'.N.incoming n = [] := by
  have := foldlM_inv_idx (k0 := 0) (P := fun k W1 => Core W1 ∧ W1.nNodes = W.nNodes ∧
      PStar isTrAny W W1 ∧ ∀ n, n < k → W1.N.incoming n = [])
    (fun k s n s' hn ⟨hc, hnn, hs, hi⟩ hfa => by
      obtain ⟨hk, rfl⟩ : k < W.nNodes ∧ k = n := by
        rw [List.getElem?_eq_some_iff] at hn
        obtain ⟨h1, h2⟩ := hn
        simp at h1 h2; exact ⟨h1, h2⟩
      have hkn : k < s.nNodes := by omega
      have ht := transfer_star hc hkn hfa
      refine ⟨hc.star ht, ht.static.nNodes.trans hnn, hs.trans (isTr_any ht), ?_⟩
      intro m hm
      by_cases hmk : m = k
      · obtain ⟨_, _, _, _, W3, -, -, -, -, rfl, -⟩ := transfer_spec hc hkn hfa
        subst hmk; simp
      · rw [isTr_incoming ht m hmk]; exact hi m (by omega)) ⟨hc, rfl, PStar.refl, by simp⟩ h
  obtain ⟨h1, h2, h3, h4⟩ := this
  refine ⟨h3, fun n => ?_⟩
  by_cases hn : n < W.nNodes
  · exact h4 n (by simpa using hn)
  · have h2' : W'.nNodes = W.nNodes := h2
    exact h1.s.inc_lt n (h2' ▸ not_lt.mp hn)

end UX
