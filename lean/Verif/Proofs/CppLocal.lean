import Verif.Proofs.CppInvStep

/-!
# Footprints of the iterations of the parallel loops of the C++ engine

`merge R W X` is the world that looks like `W` inside the region `R` and like `X` outside it; the
members that never change during a time step (globals, `outlinks`, `end_node`) are those of `W`.
`f (merge R W X) = merge R (f W) X` for all `X` says that `f` neither reads nor writes anything
outside `R` but those constants.
-/

namespace UX.Cpp
open CWorld

/-- A set of nodes, links and vehicles. -/
structure Reg where
  n : ℕ → Prop
  l : ℕ → Prop
  v : ℕ → Prop

open Classical in
noncomputable def merge (R : Reg) (W X : CWorld) : CWorld :=
  { g := W.g
    node := fun n => if R.n n then W.node n else { X.node n with outLinks := (W.node n).outLinks }
    link := fun l => if R.l l then W.link l else { X.link l with dst := (W.link l).dst }
    veh := fun v => if R.v v then W.veh v else X.veh v }

/-- `f`, applied to `W`, has footprint `R`. -/
def Foot (R : Reg) (f : CWorld → CWorld) (W : CWorld) : Prop :=
  ∀ X, f (merge R W X) = merge R (f W) X

@[simp] theorem merge_g (R : Reg) (W X : CWorld) : (merge R W X).g = W.g := rfl
@[simp] theorem merge_now (R : Reg) (W X : CWorld) : (merge R W X).now = W.now := rfl
theorem merge_node {R : Reg} {n : ℕ} (h : R.n n) (W X : CWorld) : (merge R W X).node n = W.node n := by
  simp [merge, h]
theorem merge_link {R : Reg} {l : ℕ} (h : R.l l) (W X : CWorld) : (merge R W X).link l = W.link l := by
  simp [merge, h]
theorem merge_veh {R : Reg} {v : ℕ} (h : R.v v) (W X : CWorld) : (merge R W X).veh v = W.veh v := by
  simp [merge, h]
@[simp] theorem merge_outLinks (R : Reg) (W X : CWorld) (n : ℕ) :
    ((merge R W X).node n).outLinks = (W.node n).outLinks := by
  simp only [merge]; split <;> rfl
@[simp] theorem merge_dst (R : Reg) (W X : CWorld) (l : ℕ) :
    ((merge R W X).link l).dst = (W.link l).dst := by
  simp only [merge]; split <;> rfl
theorem merge_gap {R : Reg} {l : ℕ} (h : R.l l) (W X : CWorld) : (merge R W X).gap l = W.gap l := by
  simp [gap, merge_link h]

theorem merge_self (R : Reg) (W : CWorld) : merge R W W = W := by
  refine ext' rfl (fun n => ?_) (fun l => ?_) (fun v => ?_) <;> simp [merge]

theorem merge_setN {R : Reg} {n : ℕ} (h : R.n n) (W X : CWorld) (f : CNode → CNode) :
    (merge R W X).setN n f = merge R (W.setN n f) X := by
  refine ext' rfl (fun m => ?_) (fun _ => rfl) (fun _ => rfl)
  by_cases e : m = n
  · subst e; simp [setN_node, merge, h]
  · simp [setN_node, merge, e]

theorem merge_setL {R : Reg} {l : ℕ} (h : R.l l) (W X : CWorld) (f : CLink → CLink) :
    (merge R W X).setL l f = merge R (W.setL l f) X := by
  refine ext' rfl (fun _ => rfl) (fun m => ?_) (fun _ => rfl)
  by_cases e : m = l
  · subst e; simp [setL_link, merge, h]
  · simp [setL_link, merge, e]

theorem merge_setV {R : Reg} {v : ℕ} (h : R.v v) (W X : CWorld) (f : CVeh → CVeh) :
    (merge R W X).setV v f = merge R (W.setV v f) X := by
  refine ext' rfl (fun _ => rfl) (fun _ => rfl) (fun m => ?_)
  by_cases e : m = v
  · subst e; simp [setV_veh, merge, h]
  · simp [setV_veh, merge, e]

/-! ## Commuting -/

theorem Foot.node {R : Reg} {f : CWorld → CWorld} {W : CWorld} (h : Foot R f W) (k : Keep W (f W))
    {n : ℕ} (hn : ¬ R.n n) : (f W).node n = W.node n := by
  have e := h W
  rw [merge_self] at e
  have ho := k.outLinks n
  rw [e] at ho ⊢
  simp only [merge, if_neg hn] at ho ⊢
  rw [ho]

theorem Foot.link {R : Reg} {f : CWorld → CWorld} {W : CWorld} (h : Foot R f W) (k : Keep W (f W))
    {l : ℕ} (hl : ¬ R.l l) : (f W).link l = W.link l := by
  have e := h W
  rw [merge_self] at e
  have ho := k.dst l
  rw [e] at ho ⊢
  simp only [merge, if_neg hl] at ho ⊢
  rw [ho]

theorem Foot.veh {R : Reg} {f : CWorld → CWorld} {W : CWorld} (h : Foot R f W)
    {v : ℕ} (hv : ¬ R.v v) : (f W).veh v = W.veh v := by
  have e := h W
  rw [merge_self] at e
  rw [e]
  simp only [merge, if_neg hv]

/-- Two regions without a common node, link or vehicle. -/
structure Reg.Disj (A B : Reg) : Prop where
  n : ∀ k, A.n k → ¬ B.n k
  l : ∀ k, A.l k → ¬ B.l k
  v : ∀ k, A.v k → ¬ B.v k

theorem Foot.other {A B : Reg} {f : CWorld → CWorld} {W : CWorld} (h : Foot A f W) (k : Keep W (f W))
    (d : A.Disj B) : f W = merge B W (f W) := by
  refine ext' k.g (fun n => ?_) (fun l => ?_) (fun v => ?_)
  · simp only [merge]
    split
    · rename_i hb; exact h.node k (fun ha => d.n n ha hb)
    · rw [← k.outLinks n]
  · simp only [merge]
    split
    · rename_i hb; exact h.link k (fun ha => d.l l ha hb)
    · rw [← k.dst l]
  · simp only [merge]
    split
    · rename_i hb; exact h.veh (fun ha => d.v v ha hb)
    · rfl

theorem Foot.comm {A B : Reg} {f g : CWorld → CWorld} {W : CWorld} (hf : Foot A f W) (hg : Foot B g W)
    (kf : Keep W (f W)) (kg : Keep W (g W)) (d : A.Disj B) (d' : B.Disj A) : g (f W) = f (g W) := by
  have e1 : g (f W) = merge B (g W) (f W) := by
    conv_lhs => rw [hf.other kf d]
    exact hg (f W)
  have e2 : f (g W) = merge A (f W) (g W) := by
    conv_lhs => rw [hg.other kg d']
    exact hf (g W)
  rw [e1, e2]
  have ho : ∀ n, ((g W).node n).outLinks = ((f W).node n).outLinks := fun n => by
    rw [kf.outLinks, kg.outLinks]
  have hd : ∀ l, ((g W).link l).dst = ((f W).link l).dst := fun l => by rw [kf.dst, kg.dst]
  refine ext' (kg.g.trans kf.g.symm) (fun n => ?_) (fun l => ?_) (fun v => ?_)
  · simp only [merge]
    by_cases hb : B.n n
    · rw [if_pos hb, if_neg (d'.n n hb), ← ho n]
    · rw [if_neg hb]
      by_cases ha : A.n n
      · rw [if_pos ha, ho n]
      · rw [if_neg ha, ho n, hf.node kf ha, hg.node kg hb]
  · simp only [merge]
    by_cases hb : B.l l
    · rw [if_pos hb, if_neg (d'.l l hb), ← hd l]
    · rw [if_neg hb]
      by_cases ha : A.l l
      · rw [if_pos ha, hd l]
      · rw [if_neg ha, hd l, hf.link kf ha, hg.link kg hb]
  · simp only [merge]
    by_cases hb : B.v v
    · rw [if_pos hb, if_neg (d'.v v hb)]
    · rw [if_neg hb]
      by_cases ha : A.v v
      · rw [if_pos ha]
      · rw [if_neg ha, hf.veh ha, hg.veh hb]

/-- Iterations that commute can be made in any order. -/
theorem foldl_perm {f : CWorld → ℕ → CWorld} {Q : List ℕ → CWorld → Prop}
    (hQ : ∀ {l l' W}, l.Perm l' → Q l W → Q l' W)
    (hstep : ∀ {a t W}, (a :: t).Nodup → Q (a :: t) W → Q t (f W a))
    (hcomm : ∀ {a b t W}, a ≠ b → Q (a :: b :: t) W → f (f W a) b = f (f W b) a)
    {l l' : List ℕ} (h : l.Perm l') (hnd : l.Nodup) {W : CWorld} (q : Q l W) :
    l.foldl f W = l'.foldl f W := by
  induction h generalizing W with
  | nil => rfl
  | cons a _ ih =>
    rw [List.foldl_cons, List.foldl_cons]
    exact ih (List.nodup_cons.1 hnd).2 (hstep hnd q)
  | swap a b t =>
    simp only [List.foldl_cons]
    rw [hcomm (fun e => (List.nodup_cons.1 hnd).1 (by simp [e])) q]
  | trans h1 h2 ih1 ih2 =>
    rw [ih1 hnd q, ih2 (h1.nodup_iff.1 hnd) (hQ h1 q)]

theorem Foot.foldl {R : Reg} {α : Type} {f : CWorld → α → CWorld} {P : CWorld → Prop} (xs : List α)
    (h : ∀ a ∈ xs, ∀ W, P W → Foot R (fun W => f W a) W ∧ P (f W a)) {W : CWorld} (p : P W) :
    Foot R (fun W => xs.foldl f W) W := by
  induction xs generalizing W with
  | nil => intro X; rfl
  | cons a t ih =>
    intro X
    obtain ⟨h1, h2⟩ := h a (by simp) W p
    have e := h1 X
    simp only [List.foldl_cons] at e ⊢
    rw [e]
    exact ih (fun b hb => h b (by simp [hb])) h2 X

/-! ## Link::update -/

theorem foot_linkUpdate {R : Reg} {W : CWorld} {l : ℕ} (hl : R.l l) (hq : ∀ v ∈ (W.link l).vehs, R.v v) :
    Foot R (fun W => W.linkUpdate l) W := by
  intro X
  have hm : (W.link l).vehs.map (fun v => ((merge R W X).veh v).v) =
      (W.link l).vehs.map (fun v => (W.veh v).v) :=
    List.map_congr_left (fun v hv => by rw [merge_veh (hq v hv)])
  have ht : (merge R W X).newTt l = W.newTt l := by
    simp only [newTt, merge_g, merge_link hl, hm]
  simp only [linkUpdate, merge_g, ht]
  exact merge_setL hl W X _

/-! ## Node::generate -/

theorem chooseNext_merge {R : Reg} {v : ℕ} (hv : R.v v) (W X : CWorld) (ls : List ℕ) (rng : ℕ → ℕ) :
    (merge R W X).chooseNext v ls rng = W.chooseNext v ls rng := by
  simp only [chooseNext, drawLink, cyclicFilter, avoidFilter, preferFilter, merge_g, merge_dst,
    merge_veh hv]
  rfl

theorem canEnter_merge {R : Reg} {l : ℕ} (hl : R.l l) {W : CWorld} (hq : ∀ v ∈ (W.link l).vehs, R.v v)
    (X : CWorld) : (merge R W X).canEnter l = W.canEnter l := by
  simp only [canEnter, merge_g, merge_link hl, merge_gap hl]
  cases hu : (W.link l).vehs[(W.link l).vehs.length - (W.link l).lanes]? with
  | none => rfl
  | some u => simp only [merge_veh (hq u (List.mem_of_getElem? hu))]

theorem foot_attach {R : Reg} {v l : ℕ} (hv : R.v v) (hl : R.l l) {W : CWorld}
    (hq : ∀ v ∈ (W.link l).vehs, R.v v) : Foot R (fun W => W.attach v l) W := by
  intro X
  have h1 : (merge R W X).newLeader l = W.newLeader l := by simp only [newLeader, merge_link hl]
  have h2 : (merge R W X).newLane l = W.newLane l := by
    simp only [newLane, merge_link hl]
    cases hu : (W.link l).vehs.getLast? with
    | none => rfl
    | some u => simp only [merge_veh (hq u (List.mem_of_getLast? hu))]
  simp only [attach_eq, h1, h2]
  cases hu : W.newLeader l with
  | none => exact merge_setV hv W X _
  | some u =>
    simp only
    rw [merge_setV hv, merge_setV hv, merge_setV (hq u (newLeader_mem hu))]

theorem foot_depart {R : Reg} {n v l : ℕ} (hn : R.n n) (hv : R.v v) (hl : R.l l) {W : CWorld}
    (hq : ∀ v ∈ (W.link l).vehs, R.v v) : Foot R (fun W => W.depart n v l) W := by
  intro X
  simp only [depart, merge_g, merge_link hl, merge_now]
  rw [merge_setN hn, merge_setV hv]
  have := foot_attach hv hl (W := ((W.setN n (fun N => { N with
    genQ := N.genQ.tail, runBuf := N.runBuf ++ [v] })).setV v (fun V => { V with
    state := .run
    link := some l
    x := 0
    v := (W.link l).vmax
    arrTimeLink := W.now
    visited := upd V.visited (W.link l).src true
    count := V.count + 1 }))) hq X
  simp only at this
  rw [this, merge_setL hl]

/-- What `generate` needs of the region. -/
structure GenOK (R : Reg) (n : ℕ) (W : CWorld) : Prop where
  gen : ∀ v ∈ (W.node n).genQ, R.v v
  out : ∀ l ∈ (W.node n).outLinks, R.l l
  veh : ∀ l ∈ (W.node n).outLinks, ∀ v ∈ (W.link l).vehs, R.v v

theorem GenOK.depart {R : Reg} {n v l : ℕ} {W : CWorld} (k : GenOK R n W) (hv : R.v v) :
    GenOK R n (W.depart n v l) := by
  have hnode : (W.depart n v l).node n = { W.node n with
      genQ := (W.node n).genQ.tail, runBuf := (W.node n).runBuf ++ [v] } := by
    simp [CWorld.depart, setN_node]
  have hvehs : ∀ m, ((W.depart n v l).link m).vehs = if m = l then (W.link l).vehs ++ [v] else (W.link m).vehs := by
    intro m
    simp only [CWorld.depart, setL_link, attach_link, setV_link, setN_link]
    split <;> rfl
  refine ⟨?_, ?_, ?_⟩
  · rw [hnode]; exact fun w hw => k.gen w (List.mem_of_mem_tail hw)
  · rw [hnode]; exact k.out
  · rw [hnode]
    intro m hm w hw
    rw [hvehs] at hw
    split at hw
    · rename_i e
      subst e
      rcases List.mem_append.1 hw with h | h
      · exact k.veh m hm w h
      · rw [List.mem_singleton.1 h]; exact hv
    · exact k.veh m hm w hw

theorem foot_genLoop {R : Reg} {n : ℕ} (hn : R.n n) (j : ℕ) {W : CWorld} (k : GenOK R n W) :
    Foot R (fun W => genLoop n j W) W := by
  induction j generalizing W with
  | zero => intro X; rfl
  | succ j ih =>
    intro X
    simp only [genLoop, merge_node hn]
    cases hq : (W.node n).genQ with
    | nil => rfl
    | cons v t =>
      have hv : R.v v := k.gen v (by rw [hq]; simp)
      simp only
      rw [chooseNext_merge hv]
      cases hc : W.chooseNext v (W.node n).outLinks (W.node n).rng with
      | error e => exact merge_setN hn W X _
      | ok p =>
        obtain ⟨o, rng⟩ := p
        simp only
        rw [merge_setN hn, merge_setV hv]
        generalize hW1 : (W.setN n (fun N => { N with rng := rng })).setV v (fun V => { V with next := o }) = W1
        have k1 : GenOK R n W1 := by
          subst hW1
          exact ⟨by simpa [setN_node] using k.gen, by simpa [setN_node] using k.out,
            by simpa [setN_node] using k.veh⟩
        cases o with
        | none => rfl
        | some l =>
          have hm := chooseNext_mem hc
          have hl := k.out l hm
          have hm1 : l ∈ (W1.node n).outLinks := by subst hW1; simpa [setN_node] using hm
          simp only
          rw [canEnter_merge hl (k1.veh l hm1)]
          split
          · have := foot_depart hn hv hl (k1.veh l hm1) X
            simp only at this
            rw [this]
            exact ih (k1.depart hv) X
          · rfl

theorem foot_nodeStage {R : Reg} {n : ℕ} (hn : R.n n) {W : CWorld} (k : GenOK R n W) :
    Foot R (fun W => W.nodeStage n) W := by
  intro X
  have h1 : (merge R W X).generate n = merge R (W.generate n) X := by
    have hs : (W.node n).outLinks.map (fun l => ((merge R W X).link l).lanes) =
        (W.node n).outLinks.map (fun l => (W.link l).lanes) :=
      List.map_congr_left (fun l hl => by rw [merge_link (k.out l hl)])
    simp only [generate, merge_node hn, hs]
    split
    · rfl
    · exact foot_genLoop hn _ k X
  simp only [nodeStage, h1, signalUpdate, flowUpdate, merge_g, merge_node hn]
  rw [merge_setN hn, merge_setN hn]
  rfl

/-! ## Car following -/

theorem foot_carFollow {R : Reg} {v l : ℕ} (hv : R.v v) (hl : R.l l) {W : CWorld}
    (h : (W.veh v).link = some l) (hu : ∀ u, (W.veh v).leader = some u → R.v u) :
    Foot R (fun W => W.carFollow v) W := by
  intro X
  have hp : (merge R W X).followPos v l = W.followPos v l := by
    simp only [followPos, merge_g, merge_veh hv, merge_link hl, merge_gap hl]
    cases e : (W.veh v).leader with
    | none => rfl
    | some u => simp only [merge_veh (hu u e)]
  simp only [carFollow, merge_veh hv, h, hp, merge_link hl, merge_g]
  split
  · exact merge_setV hv W X _
  · exact merge_setV hv W X _

theorem foot_followPass {R : Reg} {l : ℕ} (hl : R.l l) {W : CWorld} (hq : ∀ v ∈ (W.link l).vehs, R.v v)
    (i : Inv W none none) : Foot R (fun W => W.followPass l) W := by
  intro X
  simp only [followPass, merge_link hl]
  refine Foot.foldl (R := R) (P := fun V => V.core = W.core) (W := W) (f := carFollow) (W.link l).vehs ?_ rfl X
  intro v hv V hc
  refine ⟨foot_carFollow (hq v hv) hl ?_ ?_, (core_carFollow V v).trans hc⟩
  · rw [core_linkOf hc]; exact (i.mem l v hv).1
  · intro u hu
    have : (V.veh v).core.leader = (W.veh v).core.leader := by rw [core_veh hc]
    exact hq u (i.leader_mem hv (this.symm.trans hu))

/-! ## The RUN pass -/

theorem foot_logPush {R : Reg} {v : ℕ} (hv : R.v v) {s : Option ℕ} (hs : ∀ u, s = some u → R.v u)
    (W : CWorld) : Foot R (fun W => W.logPush v s) W := by
  intro X
  have he : (merge R W X).logEntry v s = W.logEntry v s := by
    have : (merge R W X).logSpacing v s = W.logSpacing v s := by
      cases s with
      | none => rfl
      | some u => simp only [logSpacing, merge_veh hv, merge_veh (hs u rfl), merge_g]
    simp only [logEntry, merge_veh hv, this]
  simp only [logPush, merge_g, he]
  split
  · exact merge_setV hv W X _
  · rfl

/-- What `log_data` needs of the region. -/
def LogOK (R : Reg) (v : ℕ) (W : CWorld) : Prop :=
  R.v v ∧ ((W.veh v).state = .run → ∀ l, (W.veh v).link = some l → R.l l) ∧
    ((W.veh v).state = .wait → R.n (W.veh v).orig)

theorem foot_logData {R : Reg} {v : ℕ} {W : CWorld} (h : LogOK R v W) {s : Option ℕ}
    (hs : ∀ u, s = some u → R.v u) : Foot R (fun W => W.logData v s) W := by
  intro X
  obtain ⟨hv, h1, h2⟩ := h
  have e : (merge R W X).logStats v = merge R (W.logStats v) X := by
    simp only [logStats, merge_veh hv, merge_g]
    cases hst : (W.veh v).state with
    | run =>
      cases hl : (W.veh v).link with
      | none => rfl
      | some l => exact merge_setL (h1 hst l hl) W X _
    | wait => exact merge_setN (h2 hst) W X _
    | home => rfl
    | ended => rfl
    | abort => rfl
  simp only [logData, e]
  exact foot_logPush hv hs _ X

/-- What the RUN pass of link `l` needs of the region. -/
structure RunOK (R : Reg) (l : ℕ) (W : CWorld) : Prop where
  lk : R.l l
  st : ∀ v, R.v v → (W.veh v).link = some l ∧ (W.veh v).state = .run ∨
    (W.veh v).state = .ended ∨ (W.veh v).state = .abort
  fo : ∀ v, R.v v → ∀ u, (W.veh v).follower = some u → R.v u

theorem RunOK.congr {R : Reg} {l : ℕ} {W W' : CWorld} (k : RunOK R l W)
    (h1 : ∀ v, (W'.veh v).link = (W.veh v).link) (h2 : ∀ v, (W'.veh v).state = (W.veh v).state)
    (h3 : ∀ v, (W'.veh v).follower = (W.veh v).follower) : RunOK R l W' :=
  ⟨k.lk, fun v hv => by rw [h1, h2]; exact k.st v hv, fun v hv => by rw [h3]; exact k.fo v hv⟩

theorem RunOK.core {R : Reg} {l : ℕ} {W W' : CWorld} (k : RunOK R l W) (h : W'.core = W.core) :
    RunOK R l W' :=
  k.congr (core_linkOf h) (core_state h) (fun v =>
    show (W'.veh v).core.follower = (W.veh v).core.follower by rw [core_veh h])

theorem RunOK.logOK {R : Reg} {l v : ℕ} {W : CWorld} (k : RunOK R l W) (hv : R.v v) : LogOK R v W := by
  refine ⟨hv, fun hs m hm => ?_, fun hs => ?_⟩
  · rcases k.st v hv with h | h | h
    · rw [h.1] at hm; rw [← Option.some.inj hm]; exact k.lk
    · rw [hs] at h; simp at h
    · rw [hs] at h; simp at h
  · rcases k.st v hv with h | h | h
    · rw [hs] at h; simp at h
    · rw [hs] at h; simp at h
    · rw [hs] at h; simp at h

theorem foot_endTripOn {R : Reg} {v l : ℕ} {W : CWorld} (k : RunOK R l W) (hv : R.v v) :
    Foot R (fun W => W.endTripOn v l) W ∧ RunOK R l (W.endTripOn v l) := by
  generalize hW1 : W.setL l (fun L => { L with
    trips := W.g.fl (L.trips + 1)
    dep := upd L.dep W.g.timestep (W.g.fl (L.dep W.g.timestep + W.g.deltaN))
    ttEvents := L.ttEvents ++ [(W.eventIdx v,
      W.g.fl (W.g.fl ((W.g.timestep + 1 : ℕ) * W.g.deltaT) - (W.veh v).arrTimeLink))]
    ended := L.ended ++ [v]
    vehs := L.vehs.tail }) = W1
  have k1 : RunOK R l W1 := by
    subst hW1; exact k.congr (fun _ => rfl) (fun _ => rfl) (fun _ => rfl)
  have k2 : RunOK R l (W1.detach v) :=
    k1.congr (fun w => by rw [detach_veh]) (fun w => by rw [detach_veh]) (fun w => by rw [detach_veh])
  generalize hW3 : (W1.detach v).setV v (fun V => { V with
    state := if V.flagAbort then .abort else .ended
    arrTimeLink := W.now
    arrivalTime := if V.flagAbort then -1 else W.now
    travelTime := if V.flagAbort then -1 else W.g.fl (W.now - V.depTime)
    link := none
    x := 0
    flagWait := false }) = W3
  have k3 : RunOK R l W3 := by
    subst hW3
    refine ⟨k.lk, fun w hw => ?_, fun w hw => ?_⟩
    · rw [setV_veh]
      split
      · right
        simp only
        split <;> simp
      · exact k2.st w hw
    · rw [setV_veh]
      split
      · exact k2.fo v hv
      · exact k2.fo w hw
  have e3 : W.endTripOn v l = W3.logData v none := by
    subst hW3 hW1; rfl
  constructor
  · intro X
    have d : (merge R W1 X).detach v = merge R (W1.detach v) X := by
      simp only [detach, merge_veh hv]
      cases hf : (W1.veh v).follower with
      | none => rfl
      | some u => exact merge_setV (k1.fo v hv u hf) W1 X _
    simp only [e3]
    simp only [endTripOn, eventIdx, merge_g, merge_veh hv, merge_now]
    rw [merge_setL k.lk]
    have e1 : W.setL l (fun L => { L with
      trips := W.g.fl (L.trips + 1)
      dep := upd L.dep W.g.timestep (W.g.fl (L.dep W.g.timestep + W.g.deltaN))
      ttEvents := L.ttEvents ++ [((pyInt (W.g.fl ((W.veh v).arrTimeLink / W.g.deltaT))).toNat,
        W.g.fl (W.g.fl ((W.g.timestep + 1 : ℕ) * W.g.deltaT) - (W.veh v).arrTimeLink))]
      ended := L.ended ++ [v]
      vehs := L.vehs.tail }) = W1 := hW1
    rw [e1, d, merge_setV hv, hW3]
    exact foot_logData (k3.logOK hv) (fun u hu => by simp at hu) X
  · rw [e3]; exact k3.core (core_logData W3 v none)

theorem foot_endTrip {R : Reg} {v l : ℕ} {W : CWorld} (k : RunOK R l W) (hv : R.v v)
    (h : (W.veh v).link = some l) : Foot R (fun W => W.endTrip v) W ∧ RunOK R l (W.endTrip v) := by
  obtain ⟨a, b⟩ := foot_endTripOn k hv
  refine ⟨fun X => ?_, by simp only [endTrip, h]; exact b⟩
  have := a X
  simp only [endTrip, merge_veh hv, h]
  exact this

theorem foot_waitEnd {R : Reg} {v l : ℕ} {W : CWorld} (k : RunOK R l W) (hv : R.v v)
    (h : (W.veh v).link = some l) : Foot R (fun W => W.waitEnd v l) W ∧ RunOK R l (W.waitEnd v l) := by
  generalize hW1 : W.setV v (fun V => { V with flagWait := true }) = W1
  have hw : ∀ w, (W1.veh w) = if w = v then { W.veh v with flagWait := true } else W.veh w := by
    intro w; subst hW1; exact setV_veh W v _ w
  have k1 : RunOK R l W1 := by
    refine k.congr ?_ ?_ ?_ <;>
    · intro w
      rw [hw]
      split
      · rename_i e; rw [e]
      · rfl
  have h1 : (W1.veh v).link = some l := by rw [hw, if_pos rfl]; exact h
  obtain ⟨a, b⟩ := foot_endTrip k1 hv h1
  constructor
  · intro X
    have := a X
    simp only [waitEnd]
    rw [merge_setV hv, hW1, merge_link k.lk]
    split
    · exact this
    · rfl
  · simp only [waitEnd, hW1]
    split
    · exact b
    · exact k1

theorem foot_request {R : Reg} {v l : ℕ} {W : CWorld} (k : RunOK R l W) (hv : R.v v) :
    Foot R (fun W => W.request v l) W ∧ RunOK R l (W.request v l) := by
  constructor
  · intro X
    simp only [request]
    rw [chooseNext_merge hv, merge_link k.lk, merge_outLinks]
    cases W.chooseNext v (W.node (W.link l).dst).outLinks (W.link l).rng with
    | error e => exact merge_setL k.lk W X _
    | ok p =>
      simp only
      rw [merge_setV hv, merge_setL k.lk]
  · simp only [request]
    cases W.chooseNext v (W.node (W.link l).dst).outLinks (W.link l).rng with
    | error e => exact k.congr (fun _ => rfl) (fun _ => rfl) (fun _ => rfl)
    | ok p =>
      refine k.congr ?_ ?_ ?_ <;>
      · intro w
        simp only [setL_veh, setV_veh]
        split
        · rename_i e; rw [e]
        · rfl

theorem foot_atEnd {R : Reg} {v l : ℕ} {W : CWorld} (k : RunOK R l W) (hv : R.v v)
    (h : (W.veh v).link = some l) : Foot R (fun W => W.atEnd v l) W ∧ RunOK R l (W.atEnd v l) := by
  generalize hW1 : W.setV v (fun V => { V with flagAbort := true, next := none }) = W1
  have hw : ∀ w, (W1.veh w) = if w = v then { W.veh v with flagAbort := true, next := none } else W.veh w := by
    intro w; subst hW1; exact setV_veh W v _ w
  have k1 : RunOK R l W1 := by
    refine k.congr ?_ ?_ ?_ <;>
    · intro w
      rw [hw]
      split
      · rename_i e; rw [e]
      · rfl
  have h1 : (W1.veh v).link = some l := by rw [hw, if_pos rfl]; exact h
  constructor
  · intro X
    simp only [atEnd, merge_veh hv, merge_outLinks, merge_dst]
    split
    · exact (foot_waitEnd k hv h).1 X
    · split
      · rw [merge_setV hv, hW1]
        exact (foot_waitEnd k1 hv h1).1 X
      · exact (foot_request k hv).1 X
  · simp only [atEnd]
    split
    · exact (foot_waitEnd k hv h).2
    · split
      · rw [hW1]; exact (foot_waitEnd k1 hv h1).2
      · exact (foot_request k hv).2

theorem foot_vehRun {R : Reg} {v l : ℕ} {W : CWorld} {s : Option ℕ} (k : RunOK R l W) (hv : R.v v)
    (hs : ∀ u, s = some u → R.v u) :
    Foot R (fun W => W.vehUpdate v s) W ∧ RunOK R l (W.vehUpdate v s) := by
  generalize hW1 : W.logData v s = W1
  have k1 : RunOK R l W1 := by subst hW1; exact k.core (core_logData W v s)
  have e1 : ∀ X, (merge R W X).logData v s = merge R W1 X := by
    intro X; subst hW1; exact foot_logData (k.logOK hv) hs X
  have e2 : ∀ X, (merge R W1 X).advance v = merge R (W1.advance v) X := fun X => merge_setV hv W1 X _
  have k2 : RunOK R l (W1.advance v) := k1.core (core_advance W1 v)
  rcases k1.st v hv with h | h | h
  · have h2 : ((W1.advance v).veh v).link = some l := by rw [core_linkOf (core_advance W1 v)]; exact h.1
    obtain ⟨a, b⟩ := foot_atEnd k2 hv h2
    constructor
    · intro X
      have := a X
      simp only [vehUpdate, hW1]
      rw [e1, merge_veh hv, h.2]
      simp only
      rw [e2, merge_veh hv, h2]
      simp only [merge_link k.lk, merge_g]
      split
      · exact this
      · rfl
    · simp only [vehUpdate, hW1, h.2, h2]
      split
      · exact b
      · exact k2
  all_goals
    constructor
    · intro X
      simp only [vehUpdate, hW1]
      rw [e1, merge_veh hv, h]
    · simp only [vehUpdate, hW1, h]; exact k1

theorem snapPairs_mem {lanes : ℕ} {q : List ℕ} {p : ℕ × Option ℕ} (h : p ∈ snapPairs lanes q) :
    p.1 ∈ q ∧ ∀ u, p.2 = some u → u ∈ q := by
  constructor
  · rw [← snapPairs_map lanes q]; exact List.mem_map_of_mem h
  · unfold snapPairs at h
    obtain ⟨i, _, rfl⟩ := List.mem_map.1 h
    intro u hu
    simp only at hu
    split at hu
    · exact List.mem_of_getElem? hu
    · simp at hu

theorem foot_runPass {R : Reg} {l : ℕ} {W : CWorld} (k : RunOK R l W) (hq : ∀ v ∈ (W.link l).vehs, R.v v) :
    Foot R (fun W => W.runPass l) W := by
  intro X
  simp only [runPass, merge_link k.lk]
  refine Foot.foldl (R := R) (P := RunOK R l) (W := W) (f := runVeh l)
    (snapPairs (W.link l).lanes (W.link l).vehs) ?_ k X
  intro p hp V kV
  obtain ⟨h1, h2⟩ := snapPairs_mem hp
  obtain ⟨a, b⟩ := foot_vehRun kV (hq p.1 h1) (s := p.2) (fun u hu => hq u (h2 u hu))
  constructor
  · intro Y
    have := a Y
    simp only [runVeh, merge_link k.lk]
    split
    · exact this
    · rfl
  · simp only [runVeh]
    split
    · exact b
    · exact kV

/-! ## The WAIT pass -/

theorem foot_waitPass {R : Reg} {n : ℕ} (hn : R.n n) {W : CWorld} (hq : ∀ v ∈ (W.node n).genQ, R.v v)
    (i : Inv W none none) : Foot R (fun W => W.waitPass n) W := by
  intro X
  simp only [waitPass, merge_node hn]
  refine Foot.foldl (R := R) (P := fun V => V.core = W.core) (W := W)
    (f := fun (W : CWorld) v => W.vehUpdate v none) (W.node n).genQ ?_ rfl X
  intro v hv V hc
  obtain ⟨hvn, hst, ho⟩ := (i.gen n v).1 hv
  have hst' : (V.veh v).state = .wait := (core_state hc v).trans hst
  have ho' : (V.veh v).orig = n := by
    have : (V.veh v).core.orig = (W.veh v).core.orig := by rw [core_veh hc]
    exact this.trans ho
  have hR := hq v hv
  have a : Foot R (fun W => W.logData v none) V := foot_logData
    ⟨hR, fun h => by rw [hst'] at h; simp at h, fun _ => by rw [ho']; exact hn⟩ (fun u hu => by simp at hu)
  constructor
  · intro Y
    have := a Y
    simp only at this ⊢
    rw [vehUpdate_wait hst', vehUpdate_wait (by rw [merge_veh hR]; exact hst'), this]
  · rw [vehUpdate_wait hst']; exact (core_logData V v none).trans hc

end UX.Cpp
