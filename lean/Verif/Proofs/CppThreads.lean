import Verif.Proofs.CppLocal

/-!
# The order of the iterations of the parallel loops does not matter
-/

namespace UX.Cpp
open CWorld

/-- The footprint of an iteration over link `l`: the link and the vehicles on it. -/
def linkReg (W : CWorld) (l : ℕ) : Reg :=
  { n := fun _ => False, l := fun k => k = l, v := fun v => v ∈ (W.link l).vehs }

/-- The footprint of generation at node `n`: the node, its out-links, the vehicles waiting at the node
and those on the out-links. -/
def genReg (W : CWorld) (n : ℕ) : Reg :=
  { n := fun k => k = n
    l := fun k => k ∈ (W.node n).outLinks
    v := fun v => v ∈ (W.node n).genQ ∨ ∃ l ∈ (W.node n).outLinks, v ∈ (W.link l).vehs }

/-- The footprint of the WAIT pass at node `n`: the node and the vehicles waiting there. -/
def waitReg (W : CWorld) (n : ℕ) : Reg :=
  { n := fun k => k = n, l := fun _ => False, v := fun v => v ∈ (W.node n).genQ }

theorem linkReg_disj {W : CWorld} (i : Inv W none none) {a b : ℕ} (h : a ≠ b) :
    (linkReg W a).Disj (linkReg W b) :=
  ⟨fun _ h => h.elim, fun k h1 h2 => h (h1.symm.trans h2), fun _ h1 h2 => h (i.uniq h1 h2)⟩

theorem gen_disj {W : CWorld} (i : Inv W none none) {a b v : ℕ} (h : a ≠ b) (h1 : v ∈ (W.node a).genQ) :
    v ∉ (W.node b).genQ := fun h2 =>
  h (((i.gen a v).1 h1).2.2.symm.trans ((i.gen b v).1 h2).2.2)

theorem gen_run_disj {W : CWorld} (i : Inv W none none) {a l v : ℕ} (h1 : v ∈ (W.node a).genQ) :
    v ∉ (W.link l).vehs := fun h2 => by
  have h := ((i.gen a v).1 h1).2.1
  rw [(i.mem l v h2).2.1] at h
  simp at h

theorem waitReg_disj {W : CWorld} (i : Inv W none none) {a b : ℕ} (h : a ≠ b) :
    (waitReg W a).Disj (waitReg W b) :=
  ⟨fun k h1 h2 => h (h1.symm.trans h2), fun _ h => h.elim, fun _ h1 h2 => gen_disj i h h1 h2⟩

theorem genReg_disj {W : CWorld} (i : Inv W none none) {a b : ℕ} (h : a ≠ b) :
    (genReg W a).Disj (genReg W b) := by
  have hl : ∀ k, k ∈ (W.node a).outLinks → k ∉ (W.node b).outLinks := fun k h1 h2 =>
    h (((i.outL a k).1 h1).2.symm.trans ((i.outL b k).1 h2).2)
  refine ⟨fun k h1 h2 => h (h1.symm.trans h2), hl, fun v h1 h2 => ?_⟩
  rcases h1 with h1 | ⟨l, hla, h1⟩
  · rcases h2 with h2 | ⟨m, _, h2⟩
    · exact gen_disj i h h1 h2
    · exact gen_run_disj i h1 h2
  · rcases h2 with h2 | ⟨m, hmb, h2⟩
    · exact gen_run_disj i h2 h1
    · rw [i.uniq h2 h1] at hmb; exact hl l hla hmb

theorem runOK_linkReg {W : CWorld} (i : Inv W none none) (l : ℕ) : RunOK (linkReg W l) l W :=
  ⟨rfl, fun v hv => Or.inl ⟨(i.mem l v hv).1, (i.mem l v hv).2.1⟩, fun v hv u hu => i.follower_mem hv hu⟩

theorem genOK_genReg (W : CWorld) (n : ℕ) : GenOK (genReg W n) n W :=
  ⟨fun _ h => Or.inl h, fun _ h => h, fun l hl _ h => Or.inr ⟨l, hl, h⟩⟩

/-! ## Stages -/

theorem update_perm {W : CWorld} (r : Rest W) {xs ys : List ℕ} (h : xs.Perm ys) (hnd : xs.Nodup) :
    xs.foldl linkUpdate W = ys.foldl linkUpdate W := by
  refine foldl_perm (Q := fun _ W => Rest W) (fun _ q => q) (fun _ q => (q.linkUpdate _).1) ?_ h hnd r
  intro a b t W hab q
  exact Foot.comm (f := fun W => W.linkUpdate a) (g := fun W => W.linkUpdate b)
    (foot_linkUpdate (R := linkReg W a) rfl (fun _ h => h))
    (foot_linkUpdate (R := linkReg W b) rfl (fun _ h => h)) (q.linkUpdate a).2 (q.linkUpdate b).2
    (linkReg_disj q.inv hab) (linkReg_disj q.inv hab.symm)

theorem nodeStage_perm {W : CWorld} (r : Rest W) {xs ys : List ℕ} (h : xs.Perm ys) (hnd : xs.Nodup) :
    xs.foldl nodeStage W = ys.foldl nodeStage W := by
  refine foldl_perm (Q := fun _ W => Rest W) (fun _ q => q) (fun _ q => (q.nodeStage _).1) ?_ h hnd r
  intro a b t W hab q
  exact Foot.comm (f := fun W => W.nodeStage a) (g := fun W => W.nodeStage b)
    (foot_nodeStage (R := genReg W a) rfl (genOK_genReg W a))
    (foot_nodeStage (R := genReg W b) rfl (genOK_genReg W b)) (q.nodeStage a).2 (q.nodeStage b).2
    (genReg_disj q.inv hab) (genReg_disj q.inv hab.symm)

theorem follow_perm {W : CWorld} (r : Rest W) {xs ys : List ℕ} (h : xs.Perm ys) (hnd : xs.Nodup) :
    xs.foldl followPass W = ys.foldl followPass W := by
  refine foldl_perm (Q := fun _ W => Rest W) (fun _ q => q) (fun _ q => (q.followPass _).1) ?_ h hnd r
  intro a b t W hab q
  exact Foot.comm (f := fun W => W.followPass a) (g := fun W => W.followPass b)
    (foot_followPass (R := linkReg W a) rfl (fun _ h => h) q.inv)
    (foot_followPass (R := linkReg W b) rfl (fun _ h => h) q.inv) (q.followPass a).2 (q.followPass b).2
    (linkReg_disj q.inv hab) (linkReg_disj q.inv hab.symm)

theorem wait_perm {W : CWorld} (r : Rest W) {xs ys : List ℕ} (h : xs.Perm ys) (hnd : xs.Nodup) :
    xs.foldl waitPass W = ys.foldl waitPass W := by
  refine foldl_perm (Q := fun _ W => Rest W) (fun _ q => q) (fun _ q => (q.waitPass _).1) ?_ h hnd r
  intro a b t W hab q
  exact Foot.comm (f := fun W => W.waitPass a) (g := fun W => W.waitPass b)
    (foot_waitPass (R := waitReg W a) rfl (fun _ h => h) q.inv)
    (foot_waitPass (R := waitReg W b) rfl (fun _ h => h) q.inv) (q.waitPass a).2 (q.waitPass b).2
    (waitReg_disj q.inv hab) (waitReg_disj q.inv hab.symm)

theorem run_perm {W : CWorld} (r : Rest W) (hc : ∀ l, Clear W l) {xs ys : List ℕ} (h : xs.Perm ys)
    (hnd : xs.Nodup) : xs.foldl runPass W = ys.foldl runPass W := by
  refine foldl_perm (Q := fun xs W => Rest W ∧ ∀ l ∈ xs, Clear W l) ?_ ?_ ?_ h hnd ⟨r, fun l _ => hc l⟩
  · intro l l' W hp q
    exact ⟨q.1, fun m hm => q.2 m (hp.mem_iff.2 hm)⟩
  · intro a t W hnd q
    obtain ⟨i, _, c, d⟩ := q.1.inv.runPass (l := a) q.1.inc (q.2 a (by simp))
    refine ⟨⟨i, c⟩, fun m hm => ?_⟩
    unfold Clear
    rw [d m (fun e => (List.nodup_cons.1 hnd).1 (e ▸ hm))]
    exact q.2 m (by simp [hm])
  · intro a b t W hab q
    have i := q.1.inv
    exact Foot.comm (f := fun W => W.runPass a) (g := fun W => W.runPass b)
      (foot_runPass (R := linkReg W a) (runOK_linkReg i a) (fun _ h => h))
      (foot_runPass (R := linkReg W b) (runOK_linkReg i b) (fun _ h => h))
      (i.runPass (l := a) q.1.inc (q.2 a (by simp))).2.1
      (i.runPass (l := b) q.1.inc (q.2 b (by simp))).2.1
      (linkReg_disj i hab) (linkReg_disj i hab.symm)

/-! ## Time steps -/

theorem region_order {W : CWorld} (r : Rest W) {σ τ : Sched} (hσ : σ.Valid W) (hτ : τ.Valid W) :
    region σ W = region τ W := by
  obtain ⟨a1, a2, a3, a4, a5⟩ := hσ
  obtain ⟨b1, b2, b3, b4, b5⟩ := hτ
  have nd : ∀ {xs : List ℕ} {k : ℕ}, xs.Perm (List.range k) → xs.Nodup := fun h =>
    h.nodup_iff.2 List.nodup_range
  unfold CWorld.region
  simp only
  rw [update_perm r (a1.trans b1.symm) (nd a1)]
  obtain ⟨r1, k1⟩ := Rest.foldl (fun W l r => Rest.linkUpdate r l) τ.update r
  generalize τ.update.foldl CWorld.linkUpdate W = W1 at *
  rw [nodeStage_perm r1 (a2.trans b2.symm) (nd a2)]
  obtain ⟨r2, k2⟩ := Rest.foldl (fun W n r => Rest.nodeStage r n) τ.gen r1
  generalize τ.gen.foldl CWorld.nodeStage W1 = W2 at *
  obtain ⟨r3, k3, c3⟩ := transferAll r2
  generalize (List.range W2.g.nNodes).foldl CWorld.transfer W2 = W3 at *
  rw [follow_perm r3 (a3.trans b3.symm) (nd a3)]
  obtain ⟨r4, k4⟩ := Rest.foldl (fun W l r => Rest.followPass r l) τ.follow r3
  have hc4 : (τ.follow.foldl CWorld.followPass W3).core = W3.core :=
    core_foldl _ (fun W l => core_followPass W l) τ.follow W3
  have c4 : ∀ l, Clear (τ.follow.foldl CWorld.followPass W3) l := fun l => by
    unfold Clear; rw [core_arrived hc4]; exact c3 l
  generalize τ.follow.foldl CWorld.followPass W3 = W4 at *
  rw [run_perm r4 c4 (a4.trans b4.symm) (nd a4)]
  obtain ⟨r5, k5⟩ := runAll τ.run (nd b4) r4 (fun l _ => c4 l)
  generalize τ.run.foldl CWorld.runPass W4 = W5 at *
  exact wait_perm r5 (a5.trans b5.symm) (nd a5)

theorem stepWith_order {W : CWorld} (r : Rest W) {σ τ : Sched} (hσ : σ.Valid W) (hτ : τ.Valid W)
    (home : List ℕ) : stepWith σ home W = stepWith τ home W := by
  unfold stepWith
  rw [region_order (W := W.clearExc) (r.congr (core_clearExc W).symm) hσ hτ]

theorem loopFrom_order {s1 s2 : ℕ → CWorld → Sched} (h1 : ∀ t V, (s1 t V).Valid V)
    (h2 : ∀ t V, (s2 t V).Valid V) (buckets : ℕ → List ℕ) (hb : ∀ t, (buckets t).Nodup)
    (hd : ∀ s t v, s ≠ t → v ∈ buckets s → v ∉ buckets t) (k : ℕ) {W : CWorld} (r : Rest W)
    (hh : ∀ t, W.g.timestep ≤ t → ∀ v ∈ buckets t, v < W.g.nVehs ∧ (W.veh v).state = .home) :
    loopFrom s1 buckets k W = loopFrom s2 buckets k W := by
  induction k generalizing W with
  | zero => rfl
  | succ k ih =>
    obtain ⟨r1, k1⟩ := r.stepWith (s2 W.g.timestep W)
      ((h2 _ _).2.2.2.1.nodup_iff.2 List.nodup_range) (buckets W.g.timestep) (hb _) (hh _ le_rfl)
    unfold loopFrom
    rw [stepWith_order r (h1 W.g.timestep W) (h2 W.g.timestep W)]
    split
    · rfl
    · rename_i W1 he
      rw [he] at r1 k1
      refine ih (r1.setG _ rfl rfl rfl rfl rfl) (fun t ht v hv => ?_)
      have ht' : W.g.timestep + 1 ≤ t := ht
      have hne : W.g.timestep ≠ t := by omega
      obtain ⟨p, q⟩ := hh t (by omega) v hv
      have hn := k1.nVehs
      have hv' := k1.home v (fun h => hd _ _ v hne h hv) q
      simp only at hn hv'
      exact ⟨by simp only; rw [hn]; exact p, by simp only; rw [hv']; exact q⟩

theorem mainLoop_order {W : CWorld} (r : Rest W) {s1 s2 : ℕ → CWorld → Sched}
    (h1 : ∀ t V, (s1 t V).Valid V) (h2 : ∀ t V, (s2 t V).Valid V) (endTs : ℕ) :
    W.mainLoop s1 endTs = W.mainLoop s2 endTs := by
  refine loopFrom_order h1 h2 (W.bucket W.g.timestep) (fun t => bucket_nodup W _ t) ?_ _ r ?_
  · intro s t v hne h h'
    exact hne ((mem_bucket.1 h).2.2.symm.trans (mem_bucket.1 h').2.2)
  · intro t _ v hv
    exact ⟨(mem_bucket.1 hv).1, (mem_bucket.1 hv).2.1⟩

end UX.Cpp
