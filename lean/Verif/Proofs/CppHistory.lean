import Verif.Proofs.CppRep
import Verif.Proofs.CppLifeInv

/-!
# The history of a time step of the C++ engine
-/

namespace UX.Cpp
open CWorld Relation Spec

/-! ## Parameters -/

theorem SamePar.src {W W' : CWorld} (s : SamePar W W') (i : ℕ) :
    (W'.link i).src = (W.link i).src := by
  have a := congrArg (fun L : CLink => L.src) (s.link i)
  exact a

theorem SamePar.group {W W' : CWorld} (s : SamePar W W') (i : ℕ) :
    (W'.link i).group = (W.link i).group := by
  have a := congrArg (fun L : CLink => L.group) (s.link i)
  exact a

theorem SamePar.lanes {W W' : CWorld} (s : SamePar W W') (i : ℕ) :
    (W'.link i).lanes = (W.link i).lanes := by
  have a := congrArg (fun L : CLink => L.lanes) (s.link i)
  exact a

theorem SamePar.capIn {W W' : CWorld} (s : SamePar W W') (i : ℕ) :
    (W'.link i).capIn = (W.link i).capIn := by
  have a := congrArg (fun L : CLink => L.capIn) (s.link i)
  exact a

theorem SamePar.capOut {W W' : CWorld} (s : SamePar W W') (i : ℕ) :
    (W'.link i).capOut = (W.link i).capOut := by
  have a := congrArg (fun L : CLink => L.capOut) (s.link i)
  exact a

theorem SamePar.outs {W W' : CWorld} (s : SamePar W W') (i : ℕ) :
    (W'.node i).outLinks = (W.node i).outLinks := by
  have a := congrArg (fun L : CNode => L.outLinks) (s.node i)
  exact a

theorem SamePar.sigInt {W W' : CWorld} (s : SamePar W W') (i : ℕ) :
    (W'.node i).sigInt = (W.node i).sigInt := by
  have a := congrArg (fun L : CNode => L.sigInt) (s.node i)
  exact a

theorem SamePar.flowCap {W W' : CWorld} (s : SamePar W W') (i : ℕ) :
    (W'.node i).flowCap = (W.node i).flowCap := by
  have a := congrArg (fun L : CNode => L.flowCap) (s.node i)
  exact a

theorem SamePar.nlanes {W W' : CWorld} (s : SamePar W W') (i : ℕ) :
    (W'.node i).lanes = (W.node i).lanes := by
  have a := congrArg (fun L : CNode => L.lanes) (s.node i)
  exact a

theorem SamePar.orig {W W' : CWorld} (s : SamePar W W') (i : ℕ) :
    (W'.veh i).orig = (W.veh i).orig := by
  have a := congrArg (fun L : CVeh => L.orig) (s.veh i)
  exact a

theorem Spec.OnRoad.congr {W W' : CWorld} (s : SamePar W W') (hn : W'.g.nLinks = W.g.nLinks) {e : Pass}
    (h : OnRoad W' e) : OnRoad W e := by
  unfold OnRoad at h ⊢
  cases hl : e.leaves with
  | none =>
    cases he : e.enters with
    | none => rw [hl, he] at h; exact h
    | some b =>
      rw [hl, he] at h
      simp only at h ⊢
      rw [s.src, s.orig, hn] at h
      exact h
  | some a =>
    cases he : e.enters with
    | none =>
      rw [hl, he] at h
      simp only at h ⊢
      rw [s.dst, s.dest, s.outs, hn] at h
      exact h
    | some b =>
      rw [hl, he] at h
      simp only at h ⊢
      rw [s.src, s.dst, hn] at h
      exact h

theorem Spec.Green.congr {W W' : CWorld} (s : SamePar W W') (hp : ∀ n, (W'.node n).sigPhase = (W.node n).sigPhase)
    {e : Pass} (h : Green W' e) : Green W e := by
  intro a ha hb
  have := h a ha hb
  rw [s.dst, s.group, s.sigInt, hp] at this
  exact this

theorem NRep.congr {W W' : CWorld} (s : SamePar W W') (hf : W'.g.fl = W.g.fl)
    (hN : W'.g.deltaN = W.g.deltaN) (hp : ∀ n, (W'.node n).sigPhase = (W.node n).sigPhase)
    {r r' : ℕ → ℚ} {h : List Pass} (k : NRep W' r h r') : NRep W r h r' := by
  induction k with
  | nil _ => exact .nil _
  | skip hn _ ih => exact .skip hn ih
  | @move r r' e h a ha hb hr hg _ ih =>
    rw [s.dst, s.flowCap, hf, hN] at ih
    rw [s.dst, hN] at hr
    exact .move ha hb hr (hg.congr s hp) ih

/-! ## Sequences of actions -/

theorem Acts.keep {s : Stage} {W W' : CWorld} (a : Acts s W W') : Keep W W' := by
  induction a with
  | refl => exact Keep.refl _
  | tail _ b ih => exact ih.trans b.keep

theorem NodeTr.trans {W W' W'' : CWorld} {h h' : List Pass} (k : Keep W W') (n : NodeTr W W' h)
    (n' : NodeTr W' W'' h') : NodeTr W W'' (h ++ h') :=
  ⟨fun m => ⟨(n'.sig m).1.trans (n.sig m).1, (n'.sig m).2.trans (n.sig m).2⟩,
    n.rep.trans (n'.rep.congr k.samePar (by rw [k.g]) (by rw [k.g]) (fun m => (n.sig m).1))⟩

theorem Traced.trans {W W' W'' : CWorld} {h h' : List Pass} (k : Keep W W') (t : Traced W W' h)
    (t' : Traced W' W'' h') : Traced W W'' (h ++ h') := by
  have r := t'.rep
  rw [k.g] at r
  refine ⟨t.rep.trans r, fun e he => ?_⟩
  rcases List.mem_append.1 he with he | he
  · exact t.road e he
  · exact (t'.road e he).congr k.samePar (by rw [k.g])

theorem Acts.traced {s : Stage} {W W' : CWorld} (a : Acts s W W') (hs : s ≠ .gen) :
    ∃ h, Traced W W' h ∧ NodeTr W W' h := by
  induction a with
  | refl => exact ⟨[], .none rfl, .of fun _ => rfl⟩
  | tail a b ih =>
    obtain ⟨h, t, n⟩ := ih
    obtain ⟨h', t', n'⟩ := b.traced
    rcases n' with n' | n'
    · exact absurd n'.1 hs
    · exact ⟨h ++ h', t.trans (Acts.keep a) t', n.trans (Acts.keep a) n'.2⟩

theorem Acts.tracedGen {W W' : CWorld} (a : Acts .gen W W') :
    ∃ h, Traced W W' h ∧ ∀ e ∈ h, e.leaves = none := by
  induction a with
  | refl => exact ⟨[], .none rfl, by simp⟩
  | tail a b ih =>
    obtain ⟨h, t, n⟩ := ih
    obtain ⟨h', t', n'⟩ := b.traced
    refine ⟨h ++ h', t.trans (Acts.keep a) t', fun e he => ?_⟩
    rcases List.mem_append.1 he with he | he
    · exact n e he
    · rcases n' with n' | n'
      · exact n'.2 e he
      · exact absurd rfl n'.1

theorem NRep.skips {W : CWorld} (r : ℕ → ℚ) {h : List Pass} (hh : ∀ e ∈ h, e.leaves = none) :
    NRep W r h r := by
  induction h with
  | nil => exact .nil _
  | cons e h ih => exact .skip (Or.inl (hh e (by simp))) (ih (fun x hx => hh x (by simp [hx])))

/-! ## Signals and node capacities in the generate stage -/

/-- `Node::signal_update` of one node. -/
def sigNext (g : CGlob) (N : CNode) : CNode :=
  let sw := decide (N.sigInt.getD N.sigPhase 0 < N.sigT)
  let ph := if 1 < N.sigInt.length ∧ sw = true then
      (if N.sigInt.length ≤ N.sigPhase + 1 then 0 else N.sigPhase + 1)
    else N.sigPhase
  let t := if 1 < N.sigInt.length then g.fl ((if sw then 0 else N.sigT) + g.deltaT) else N.sigT
  { N with sigPhase := ph, sigT := t, sigLog := N.sigLog ++ [ph] }

/-- `Node::flow_capacity_update` of one node. -/
def flowNext (g : CGlob) (N : CNode) : CNode :=
  { N with
    flowRem := if 0 ≤ N.flowCap then
      if N.flowRem < g.fl (g.deltaN * (if 0 < N.lanes then N.lanes else 1))
        then g.fl (N.flowRem + g.fl (N.flowCap * g.deltaT)) else N.flowRem
    else 100000000000 }

/-- A node without what `generate` changes. -/
def CNode.gv (N : CNode) : CNode := { N with genQ := [], runBuf := [], rng := fun _ => 0, exc := none }

theorem setN_gv {W : CWorld} {n : ℕ} {f : CNode → CNode} (h : ∀ N, (f N).gv = N.gv) (m : ℕ) :
    ((W.setN n f).node m).gv = (W.node m).gv := by
  rw [setN_node]; split
  · rename_i e; rw [h, e]
  · rfl

theorem genLoop_gv (n k : ℕ) (W : CWorld) :
    (∀ m, ((CWorld.genLoop n k W).node m).gv = (W.node m).gv) ∧ (CWorld.genLoop n k W).g = W.g := by
  induction k generalizing W with
  | zero => exact ⟨fun _ => rfl, rfl⟩
  | succ k ih =>
    simp only [CWorld.genLoop]
    split
    · exact ⟨fun _ => rfl, rfl⟩
    · rename_i v t hq
      split
      · exact ⟨setN_gv (fun _ => rfl), rfl⟩
      · rename_i o rng hc
        have h1 : ∀ o' : Option ℕ, (∀ m, (((W.setN n (fun N => { N with rng := rng })).setV v
            (fun V => { V with next := o' })).node m).gv = (W.node m).gv) := fun o' =>
          setN_gv (f := fun N => { N with rng := rng }) (fun _ => rfl)
        split
        · exact ⟨h1 none, rfl⟩
        · rename_i l
          split
          · obtain ⟨p, q⟩ := ih (((W.setN n (fun N => { N with rng := rng })).setV v
              (fun V => { V with next := some l })).depart n v l)
            refine ⟨fun m => (p m).trans (Eq.trans ?_ (h1 (some l) m)), q.trans ?_⟩
            · simp only [CWorld.depart, setL_node, attach_node, setV_node]
              refine setN_gv ?_ m
              intro N; rfl
            · simp [CWorld.depart]
          · exact ⟨h1 (some l), rfl⟩

theorem generate_gv (W : CWorld) (n : ℕ) :
    (∀ m, ((W.generate n).node m).gv = (W.node m).gv) ∧ (W.generate n).g = W.g := by
  unfold CWorld.generate
  split
  · exact ⟨fun _ => rfl, rfl⟩
  · exact genLoop_gv _ _ _

theorem nodeStage_gv (W : CWorld) (n m : ℕ) : ((W.nodeStage n).node m).gv =
    if m = n then flowNext W.g (sigNext W.g (W.node n).gv) else (W.node m).gv := by
  obtain ⟨p, q⟩ := generate_gv W n
  unfold CWorld.nodeStage
  have h1 : ∀ V : CWorld, (V.signalUpdate n).node m = if m = n then sigNext V.g (V.node n) else V.node m := by
    intro V; unfold CWorld.signalUpdate; simp only [setN_node]; rfl
  have h2 : ∀ V : CWorld, (V.flowUpdate n).node m = if m = n then flowNext V.g (V.node n) else V.node m := by
    intro V; unfold CWorld.flowUpdate; simp only [setN_node]; rfl
  rw [h2]
  have h3 : ((W.generate n).signalUpdate n).g = (W.generate n).g := rfl
  have h4 : ∀ V : CWorld, (V.signalUpdate n).node n = sigNext V.g (V.node n) := by
    intro V; unfold CWorld.signalUpdate; simp only [setN_node]; rfl
  split
  · rw [h3, h4, q, ← p n]
    rfl
  · rename_i e
    rw [h1, if_neg e, p m]

theorem nodeStage_g (W : CWorld) (n : ℕ) : (W.nodeStage n).g = W.g := (generate_gv W n).2

theorem genAll_gv (xs : List ℕ) (hnd : xs.Nodup) (W : CWorld) (m : ℕ) :
    ((xs.foldl CWorld.nodeStage W).node m).gv =
      if m ∈ xs then flowNext W.g (sigNext W.g (W.node m).gv) else (W.node m).gv := by
  induction xs generalizing W with
  | nil => simp
  | cons n t ih =>
    obtain ⟨hn, ht⟩ := List.nodup_cons.1 hnd
    rw [List.foldl_cons, ih ht, nodeStage_g, nodeStage_gv]
    by_cases e : m = n
    · subst e; simp [hn]
    · simp [e]

/-! ## The parallel region -/

theorem region_stages {W : CWorld} (r : Rest W) (σ : Sched) (hσ : σ.run.Nodup) :
    ∃ W3 W4 W5, Acts .gen (σ.update.foldl CWorld.linkUpdate W)
        (σ.gen.foldl CWorld.nodeStage (σ.update.foldl CWorld.linkUpdate W)) ∧
      Acts .trans (σ.gen.foldl CWorld.nodeStage (σ.update.foldl CWorld.linkUpdate W)) W3 ∧
      Acts .follow W3 W4 ∧ Acts .run W4 W5 ∧ Acts .wait W5 (region σ W) := by
  unfold CWorld.region
  obtain ⟨r1, k1⟩ := Rest.foldl (fun W l r => Rest.linkUpdate r l) σ.update r
  simp only
  generalize σ.update.foldl CWorld.linkUpdate W = W1 at *
  obtain ⟨r2, k2⟩ := Rest.foldl (fun W n r => Rest.nodeStage r n) σ.gen r1
  have s2 : Acts .gen W1 (σ.gen.foldl CWorld.nodeStage W1) :=
    foldl_acts (fun W n r => Rest.nodeStage r n) (fun W n r => nodeStage_acts r n) σ.gen r1
  generalize σ.gen.foldl CWorld.nodeStage W1 = W2 at *
  obtain ⟨r3, k3, c3⟩ := transferAll r2
  have s3 := transferAll_acts (List.range W2.g.nNodes) r2
  generalize (List.range W2.g.nNodes).foldl CWorld.transfer W2 = W3 at *
  obtain ⟨r4, k4⟩ := Rest.foldl (fun W l r => Rest.followPass r l) σ.follow r3
  have s4 : Acts .follow W3 (σ.follow.foldl CWorld.followPass W3) :=
    foldl_acts (fun W l r => Rest.followPass r l) (fun W l r => followPass_acts r l) σ.follow r3
  have hc4 : (σ.follow.foldl CWorld.followPass W3).core = W3.core :=
    core_foldl _ (fun W l => core_followPass W l) σ.follow W3
  have c4 : ∀ l, Clear (σ.follow.foldl CWorld.followPass W3) l := fun l => by
    unfold Clear; rw [core_arrived hc4]; exact c3 l
  generalize σ.follow.foldl CWorld.followPass W3 = W4 at *
  obtain ⟨r5, k5⟩ := runAll σ.run hσ r4 (fun l _ => c4 l)
  have s5 := runAll_acts σ.run hσ r4 (fun l _ => c4 l)
  generalize σ.run.foldl CWorld.runPass W4 = W5 at *
  exact ⟨W3, W4, W5, s2, s3, s4, s5,
    foldl_acts (fun W n r => Rest.waitPass r n) (fun W n r => waitPass_acts r n) σ.wait r5⟩

theorem linkUpdates_par (xs : List ℕ) (W : CWorld) : SamePar W (xs.foldl CWorld.linkUpdate W) ∧
    (xs.foldl CWorld.linkUpdate W).node = W.node ∧ (xs.foldl CWorld.linkUpdate W).g = W.g ∧
    (xs.foldl CWorld.linkUpdate W).veh = W.veh := by
  induction xs generalizing W with
  | nil => exact ⟨SamePar.refl W, rfl, rfl, rfl⟩
  | cons l t ih =>
    obtain ⟨a, b, c, d⟩ := ih (W.linkUpdate l)
    exact ⟨(linkUpdate_samePar W l).trans a, b, c, d⟩

theorem linkUpdates_caps (xs : List ℕ) (hnd : xs.Nodup) (W : CWorld) (l : ℕ) :
    ((xs.foldl CWorld.linkUpdate W).link l).ttEvents = (W.link l).ttEvents ∧
    ((xs.foldl CWorld.linkUpdate W).link l).capInRem =
      (if l ∈ xs then W.refill (W.link l).lanes (W.link l).capIn (W.link l).capInRem
        else (W.link l).capInRem) ∧
    ((xs.foldl CWorld.linkUpdate W).link l).capOutRem =
      (if l ∈ xs then W.refill (W.link l).lanes (W.link l).capOut (W.link l).capOutRem
        else (W.link l).capOutRem) := by
  induction xs generalizing W with
  | nil => simp
  | cons k t ih =>
    obtain ⟨hk, ht⟩ := List.nodup_cons.1 hnd
    obtain ⟨a, b, c⟩ := ih ht (W.linkUpdate k)
    have hr : ∀ n c r, (W.linkUpdate k).refill n c r = W.refill n c r := fun _ _ _ => rfl
    have hl : ∀ m, (W.linkUpdate k).link m = if m = k then { W.link k with
          ttInst := upd (W.link k).ttInst W.g.timestep (W.newTt k)
          arr := if W.g.timestep ≠ 0 then upd (W.link k).arr W.g.timestep
            ((W.link k).arr (W.g.timestep - 1)) else (W.link k).arr
          dep := if W.g.timestep ≠ 0 then upd (W.link k).dep W.g.timestep
            ((W.link k).dep (W.g.timestep - 1)) else (W.link k).dep
          capOutRem := W.refill (W.link k).lanes (W.link k).capOut (W.link k).capOutRem
          capInRem := W.refill (W.link k).lanes (W.link k).capIn (W.link k).capInRem } else W.link m := by
      intro m
      simp only [CWorld.linkUpdate, setL_link]
    rw [List.foldl_cons, a, b, c, hl]
    simp only [hr]
    by_cases e : l = k
    · subst e; simp [hk]
    · simp [e]

/-- What a time step does. -/
structure StepHist (W W' : CWorld) (h : List Pass) : Prop where
  rep : ∃ X : TS, Rep W.g X h (tst W') ∧ X.pos = (tst W).pos ∧ (∀ l, (X.lk l).q = ((tst W).lk l).q ∧
    (X.lk l).tt = ((tst W).lk l).tt) ∧
    ∀ l, (∀ s, s ≠ W.g.timestep → (X.lk l).arr s = (W.link l).arr s ∧ (X.lk l).dep s = (W.link l).dep s) ∧
    (l < W.g.nLinks →
      (X.lk l).arr W.g.timestep = (if W.g.timestep = 0 then (W.link l).arr 0
        else (W.link l).arr (W.g.timestep - 1)) ∧
      (X.lk l).dep W.g.timestep = (if W.g.timestep = 0 then (W.link l).dep 0
        else (W.link l).dep (W.g.timestep - 1)) ∧
      (X.lk l).cin = W.refill (W.link l).lanes (W.link l).capIn (W.link l).capInRem ∧
      (X.lk l).cout = W.refill (W.link l).lanes (W.link l).capOut (W.link l).capOutRem)
  road : ∀ e ∈ h, OnRoad W e
  par : SamePar W W'
  fix : W'.g.fix = W.g.fix
  time : W'.g.timestep = W.g.timestep
  sig : ∀ n, n < W.g.nNodes → (W'.node n).sigPhase = (sigNext W.g (W.node n)).sigPhase ∧
    (W'.node n).sigT = (sigNext W.g (W.node n)).sigT ∧
    (W'.node n).sigLog = (sigNext W.g (W.node n)).sigLog
  nodes : ∃ r, (∀ n, n < W.g.nNodes → r n = (flowNext W.g (W.node n)).flowRem) ∧
    NRep W' r h (rems W')

theorem vehUpdate_tst {W : CWorld} {v : ℕ} (hst : (W.veh v).state = .home) :
    tst (W.vehUpdate v none) = tst W ∧
      ∀ n, ((W.vehUpdate v none).node n).tv = (W.node n).tv := by
  have h1 : ((W.logData v none).veh v).state = .home := by
    rw [core_state (core_logData W v none)]; exact hst
  unfold vehUpdate
  simp only [h1]
  split
  · refine ⟨Eq.trans ?_ (tst_logData W v none), fun n => ?_⟩
    · refine (tst_congr ?_ ?_ ?_)
      · intro l; rfl
      · intro w; simp only [setN_veh, setV_veh]; split
        · rename_i e; rw [e]
        · rfl
      · intro w; simp only [setN_veh, setV_veh]; split
        · rename_i e; rw [e]
        · rfl
    · refine Eq.trans ?_ (logData_ntv W v none n)
      refine setN_tv (W := (W.logData v none).setV v _) ?_ n
      intro N; rfl
  · exact ⟨tst_logData W v none, logData_ntv W v none⟩

theorem homePass_tst (xs : List ℕ) (hnd : xs.Nodup) {W : CWorld} (r : Rest W)
    (hx : ∀ v ∈ xs, v < W.g.nVehs ∧ (W.veh v).state = .home) :
    tst (xs.foldl (fun W v => W.vehUpdate v none) W) = tst W ∧
      ∀ n, ((xs.foldl (fun W v => W.vehUpdate v none) W).node n).tv = (W.node n).tv := by
  induction xs generalizing W with
  | nil => exact ⟨rfl, fun _ => rfl⟩
  | cons v t ih =>
    obtain ⟨hv, ht⟩ := List.nodup_cons.1 hnd
    obtain ⟨p, q, g, e⟩ := r.homeVeh (hx v (by simp)).1 (hx v (by simp)).2
    obtain ⟨a, b⟩ := ih ht p (fun w hw => by
      rw [g, e w (fun h => hv (h ▸ hw))]; exact hx w (by simp [hw]))
    obtain ⟨a', b'⟩ := vehUpdate_tst (hx v (by simp)).2
    exact ⟨a.trans a', fun n => (b n).trans (b' n)⟩

theorem endStep_tst (W : CWorld) : tst W.reconcile.routeStep = tst W ∧
    ∀ n, (W.reconcile.routeStep.node n).tv = (W.node n).tv := by
  obtain ⟨_, hv, _, _, _, _, _, hn, _⟩ := routeStep_same W.reconcile
  refine ⟨tst_congr (fun l => ?_) (fun v => ?_) (fun v => ?_), fun n => ?_⟩
  · obtain ⟨r, e⟩ := routeStep_link W.reconcile l
    rw [e, reconcile_link]; rfl
  · rw [hv]; rfl
  · rw [hv]; rfl
  · rw [hn]; simp only [CWorld.reconcile]; split <;> rfl

/-- A completed time step. -/
theorem step_hist {W : CWorld} (r : Rest W) {σ : Sched} (hσ : σ.Valid W) {home : List ℕ}
    (hnd : home.Nodup) (hh : ∀ v ∈ home, v < W.g.nVehs ∧ (W.veh v).state = .home) {W' : CWorld}
    (he : CWorld.stepWith σ home W = (W', none)) : ∃ h, StepHist W W' h := by
  have hrun : σ.run.Nodup := hσ.2.2.2.1.nodup_iff.2 List.nodup_range
  have hgen : σ.gen.Nodup := hσ.2.1.nodup_iff.2 List.nodup_range
  have hupd : σ.update.Nodup := hσ.1.nodup_iff.2 List.nodup_range
  have r0 : Rest W.clearExc := r.congr (core_clearExc W).symm
  obtain ⟨k2, _⟩ := r.stepWith2 σ hrun home hnd hh
  obtain ⟨_, k3⟩ := r.stepWith σ hrun home hnd hh
  rw [he] at k2 k3
  obtain ⟨r1, k1⟩ := r0.region σ hrun
  obtain ⟨W3, W4, W5, a1, a2, a3, a4, a5⟩ := region_stages r0 σ hrun
  obtain ⟨u1, u2, u3, u4⟩ := linkUpdates_par σ.update W.clearExc
  obtain ⟨f1, f2⟩ := linkUpdates_flow σ.update W.clearExc
  have f3 := linkUpdates_caps σ.update hupd W.clearExc
  have gv := genAll_gv σ.gen hgen (σ.update.foldl CWorld.linkUpdate W.clearExc)
  unfold CWorld.stepWith at he
  simp only at he
  have kk := (Keep.clearExc W).trans k1
  generalize hW1 : σ.update.foldl CWorld.linkUpdate W.clearExc = W1 at *
  generalize hW2 : σ.gen.foldl CWorld.nodeStage W1 = W2 at *
  generalize hW6 : CWorld.region σ W.clearExc = W6 at *
  obtain ⟨h1, t1, n1⟩ := Acts.tracedGen a1
  obtain ⟨h2, t2, n2⟩ := Acts.traced a2 (by nofun)
  obtain ⟨h3, t3, n3⟩ := Acts.traced a3 (by nofun)
  obtain ⟨h4, t4, n4⟩ := Acts.traced a4 (by nofun)
  obtain ⟨h5, t5, n5⟩ := Acts.traced a5 (by nofun)
  have kA := Acts.keep a1
  have kB := Acts.keep a2
  have kC := kB.trans (Acts.keep a3)
  have kD := kC.trans (Acts.keep a4)
  have kE := kD.trans (Acts.keep a5)
  have t := ((t2.trans kB t3).trans kC t4).trans kD t5
  have n := ((n2.trans kB n3).trans kC n4).trans kD n5
  have tt := t1.trans kA t
  generalize h2 ++ h3 ++ h4 ++ h5 = hh2 at *
  have hx : ∀ v ∈ home, v < W6.g.nVehs ∧ (W6.veh v).state = .home := fun v hv => by
    rw [kk.g, kk.home v (hh v hv).2]; exact hh v hv
  have e1 := homePass_tst home hnd r1 hx
  split at he
  · simp at he
  obtain rfl := congrArg Prod.fst he
  simp only at k2 k3
  generalize home.foldl (fun (W : CWorld) v => W.vehUpdate v none) W6 = W7 at *
  have e2 := endStep_tst W7
  have et : tst W7.reconcile.routeStep = tst W6 := e2.1.trans e1.1
  have en : ∀ n, (W7.reconcile.routeStep.node n).tv = (W6.node n).tv := fun n => (e2.2 n).trans (e1.2 n)
  have hg1 : W1.g = W.g := u3
  refine ⟨h1 ++ hh2, ⟨⟨tst W1, ?_, ?_, fun l => ⟨?_, ?_⟩, fun l => ⟨fun s hs => ?_, fun hl => ⟨?_, ?_, ?_, ?_⟩⟩⟩,
    fun e he => ?_, k3.par, k2.fix, k3.timestep, fun m hm => ?_, ?_⟩⟩
  · rw [et, ← hg1]; exact tt.rep
  · funext v; show (W1.veh v).link = (W.veh v).link; rw [u4]; rfl
  · show queue W1 l = queue W l
    unfold queue
    rw [(f2 l).1, u4]; rfl
  · exact (f3 l).1
  · exact ((f2 l).2.1 s hs)
  · refine ((f2 l).2.2.1).trans ?_
    have hm : l ∈ σ.update := hσ.1.mem_iff.2 (List.mem_range.2 hl)
    by_cases h0 : W.g.timestep = 0
    · rw [if_neg (fun h => h.2 h0), if_pos h0]
      show (W.link l).arr W.g.timestep = _
      rw [h0]
    · rw [if_pos ⟨hm, h0⟩, if_neg h0]; rfl
  · refine ((f2 l).2.2.2).trans ?_
    have hm : l ∈ σ.update := hσ.1.mem_iff.2 (List.mem_range.2 hl)
    by_cases h0 : W.g.timestep = 0
    · rw [if_neg (fun h => h.2 h0), if_pos h0]
      show (W.link l).dep W.g.timestep = _
      rw [h0]
    · rw [if_pos ⟨hm, h0⟩, if_neg h0]; rfl
  · refine ((f3 l).2.1).trans ?_
    rw [if_pos (hσ.1.mem_iff.2 (List.mem_range.2 hl))]; rfl
  · refine ((f3 l).2.2).trans ?_
    rw [if_pos (hσ.1.mem_iff.2 (List.mem_range.2 hl))]; rfl
  · exact (tt.road e he).congr ((show SamePar W W.clearExc from ⟨fun _ => rfl, fun _ => rfl, fun _ => rfl⟩).trans u1)
      (by rw [hg1])
  · have hmem : m ∈ σ.gen := hσ.2.1.mem_iff.2 (List.mem_range.2 hm)
    have g1 := gv m
    rw [if_pos hmem, hg1, u2] at g1
    have p1 : (W2.node m).sigPhase = (sigNext W.g (W.node m)).sigPhase := by
      have a := congrArg (fun N : CNode => N.sigPhase) g1
      exact a
    have p2 : (W2.node m).sgn = (sigNext W.g (W.node m)).sgn := by
      have a := congrArg (fun N : CNode => N.sgn) g1
      exact a
    have q := en m
    have q1 : (W7.reconcile.routeStep.node m).sigPhase = (W6.node m).sigPhase := congrArg (·.1) q
    have q2 : (W7.reconcile.routeStep.node m).sgn = (W6.node m).sgn := congrArg (·.2.1) q
    have q3 := q2.trans ((n.sig m).2.trans p2)
    exact ⟨q1.trans ((n.sig m).1.trans p1), congrArg (·.2) q3, congrArg (·.1) q3⟩
  · refine ⟨rems W2, fun m hm => ?_, ?_⟩
    · have hmem : m ∈ σ.gen := hσ.2.1.mem_iff.2 (List.mem_range.2 hm)
      have g1 := gv m
      rw [if_pos hmem, hg1, u2] at g1
      have a := congrArg (fun N : CNode => N.flowRem) g1
      exact a
    · have er : rems W7.reconcile.routeStep = rems W6 := funext (fun m => congrArg (·.2.2) (en m))
      rw [er]
      have base := n.rep
      have sp : SamePar W7.reconcile.routeStep W2 := by
        have a : SamePar W W2 :=
          (show SamePar W W.clearExc from ⟨fun _ => rfl, fun _ => rfl, fun _ => rfl⟩).trans (u1.trans kA.samePar)
        have b := k3.par
        exact ⟨fun m => (a.node m).trans (b.node m).symm, fun m => (a.link m).trans (b.link m).symm,
          fun m => (a.veh m).trans (b.veh m).symm⟩
      have hfx : W2.g.fix = W7.reconcile.routeStep.g.fix := by rw [kA.g, hg1]; exact k2.fix.symm
      refine (NRep.skips (rems W2) n1).trans (base.congr sp (CGlob.fix_fl hfx) (CGlob.fix_deltaN hfx) ?_)
      intro m
      have q1 : (W7.reconcile.routeStep.node m).sigPhase = (W6.node m).sigPhase := congrArg (·.1) (en m)
      rw [q1]
      exact ((n.sig m).1).symm

end UX.Cpp
