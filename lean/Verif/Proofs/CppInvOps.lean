import Verif.Proofs.CppInv

/-!
# The operations of the C++ engine preserve the structural invariant
-/

namespace UX.Cpp
open CWorld

/-! ## What no operation of a time step changes -/

/-- Parameters of a vehicle; the other members are set to fixed values. -/
def CVeh.par (V : CVeh) : CVeh :=
  { V with
    link := none, arrivalTime := 0, travelTime := 0, dist := 0, x := 0, xNext := 0, xOld := 0, v := 0
    moveRem := 0, lane := 0, leader := none, follower := none, state := .home, flagWait := false
    flagAbort := false, arrTimeLink := 0, next := none, visited := fun _ => false, count := 0
    log := [], logFirst := 0, logLast := 0, logWait := 0, logEnd := 0, eager := [] }

/-- Parameters of a link. -/
def CLink.par (L : CLink) : CLink :=
  { L with
    capOutRem := 0, capInRem := 0, vehs := [], arr := fun _ => 0, dep := fun _ => 0
    ttEvents := [], ttInst := fun _ => 0, arrived := [], ended := [], aveV := 0
    aveVr := 0, stat := 0, trips := 0, rng := fun _ => 0, exc := none }

/-- Parameters of a node. -/
def CNode.par (N : CNode) : CNode :=
  { N with
    incoming := [], genQ := [], runBuf := [], sigT := 0, sigPhase := 0, sigLog := [], flowRem := 0
    stat := 0, rng := fun _ => 0, exc := none }

/-- `W'` has the parameters of `W`, vehicles at home are as they were, and no vehicle goes home. -/
structure Keep (W W' : CWorld) : Prop where
  g : W'.g = W.g
  node : ∀ n, (W'.node n).par = (W.node n).par
  link : ∀ l, (W'.link l).par = (W.link l).par
  veh : ∀ v, (W'.veh v).par = (W.veh v).par
  home : ∀ v, (W.veh v).state = .home → W'.veh v = W.veh v
  stay : ∀ v, (W'.veh v).state = .home → (W.veh v).state = .home

theorem Keep.refl (W : CWorld) : Keep W W :=
  ⟨rfl, fun _ => rfl, fun _ => rfl, fun _ => rfl, fun _ _ => rfl, fun _ h => h⟩

theorem Keep.trans {W W' W'' : CWorld} (h : Keep W W') (h' : Keep W' W'') : Keep W W'' :=
  ⟨h'.g.trans h.g, fun n => (h'.node n).trans (h.node n), fun l => (h'.link l).trans (h.link l),
    fun v => (h'.veh v).trans (h.veh v),
    fun v hv => (h'.home v (by rw [h.home v hv]; exact hv)).trans (h.home v hv),
    fun v hv => h.stay v (h'.stay v hv)⟩

theorem Keep.setV {W : CWorld} {v : ℕ} {f : CVeh → CVeh} (h : ∀ V, (f V).par = V.par)
    (hs : (W.veh v).state ≠ .home)
    (hn : ∀ V, (f V).state = .home → V.state = .home := by
      first | exact fun _ h => h | (intro _ h; simp at h; done) | (intro _ h; simp only at h; split at h <;> simp at h; done)) :
    Keep W (W.setV v f) := by
  refine ⟨rfl, fun _ => rfl, fun _ => rfl, fun w => ?_, fun w hw => ?_, fun w hw => ?_⟩
  · rw [setV_veh]; split
    · rename_i e; rw [h, e]
    · rfl
  · rw [setV_veh, if_neg (fun e => hs (by rw [← e]; exact hw))]
  · rw [setV_veh] at hw
    split at hw
    · rename_i e; rw [e]; exact hn _ hw
    · exact hw

theorem Keep.setL {W : CWorld} {l : ℕ} {f : CLink → CLink} (h : ∀ L, (f L).par = L.par) :
    Keep W (W.setL l f) := by
  refine ⟨rfl, fun _ => rfl, fun m => ?_, fun _ => rfl, fun _ _ => rfl, fun _ h => h⟩
  rw [setL_link]; split
  · rename_i e; rw [h, e]
  · rfl

theorem Keep.setN {W : CWorld} {n : ℕ} {f : CNode → CNode} (h : ∀ N, (f N).par = N.par) :
    Keep W (W.setN n f) := by
  refine ⟨rfl, fun m => ?_, fun _ => rfl, fun _ => rfl, fun _ _ => rfl, fun _ h => h⟩
  rw [setN_node]; split
  · rename_i e; rw [h, e]
  · rfl

theorem Keep.thenV {W W' : CWorld} {v : ℕ} {f : CVeh → CVeh} (k : Keep W W')
    (h : ∀ V, (f V).par = V.par) (hs : (W'.veh v).state ≠ .home)
    (hn : ∀ V, (f V).state = .home → V.state = .home := by
      first | exact fun _ h => h | (intro _ h; simp at h; done) | (intro _ h; simp only at h; split at h <;> simp at h; done)) :
    Keep W (W'.setV v f) :=
  k.trans (Keep.setV h hs hn)

theorem Keep.thenL {W W' : CWorld} {l : ℕ} {f : CLink → CLink} (k : Keep W W')
    (h : ∀ L, (f L).par = L.par) : Keep W (W'.setL l f) :=
  k.trans (Keep.setL h)

theorem Keep.thenN {W W' : CWorld} {n : ℕ} {f : CNode → CNode} (k : Keep W W')
    (h : ∀ N, (f N).par = N.par) : Keep W (W'.setN n f) :=
  k.trans (Keep.setN h)

theorem Keep.foldl {α : Type} {f : CWorld → α → CWorld} (h : ∀ W a, Keep W (f W a)) (xs : List α)
    (W : CWorld) : Keep W (xs.foldl f W) := by
  induction xs generalizing W with
  | nil => exact Keep.refl W
  | cons a t ih => exact (h W a).trans (ih _)

theorem Keep.src {W W' : CWorld} (k : Keep W W') (l : ℕ) : (W'.link l).src = (W.link l).src :=
  show (W'.link l).par.src = (W.link l).par.src by rw [k.link]
theorem Keep.dst {W W' : CWorld} (k : Keep W W') (l : ℕ) : (W'.link l).dst = (W.link l).dst :=
  show (W'.link l).par.dst = (W.link l).par.dst by rw [k.link]
theorem Keep.lanes {W W' : CWorld} (k : Keep W W') (l : ℕ) : (W'.link l).lanes = (W.link l).lanes :=
  show (W'.link l).par.lanes = (W.link l).par.lanes by rw [k.link]
theorem Keep.len {W W' : CWorld} (k : Keep W W') (l : ℕ) : (W'.link l).len = (W.link l).len :=
  show (W'.link l).par.len = (W.link l).par.len by rw [k.link]
theorem Keep.vmax {W W' : CWorld} (k : Keep W W') (l : ℕ) : (W'.link l).vmax = (W.link l).vmax :=
  show (W'.link l).par.vmax = (W.link l).par.vmax by rw [k.link]
theorem Keep.outLinks {W W' : CWorld} (k : Keep W W') (n : ℕ) :
    (W'.node n).outLinks = (W.node n).outLinks :=
  show (W'.node n).par.outLinks = (W.node n).par.outLinks by rw [k.node]
theorem Keep.inLinks {W W' : CWorld} (k : Keep W W') (n : ℕ) :
    (W'.node n).inLinks = (W.node n).inLinks :=
  show (W'.node n).par.inLinks = (W.node n).par.inLinks by rw [k.node]
theorem Keep.orig {W W' : CWorld} (k : Keep W W') (v : ℕ) : (W'.veh v).orig = (W.veh v).orig :=
  show (W'.veh v).par.orig = (W.veh v).par.orig by rw [k.veh]
theorem Keep.dest {W W' : CWorld} (k : Keep W W') (v : ℕ) : (W'.veh v).dest = (W.veh v).dest :=
  show (W'.veh v).par.dest = (W.veh v).par.dest by rw [k.veh]

/-! ## Members of the structure -/

theorem core_state {W W' : CWorld} (h : W.core = W'.core) (v : ℕ) :
    (W.veh v).state = (W'.veh v).state :=
  show (W.veh v).core.state = (W'.veh v).core.state by rw [core_veh h]
theorem core_linkOf {W W' : CWorld} (h : W.core = W'.core) (v : ℕ) :
    (W.veh v).link = (W'.veh v).link :=
  show (W.veh v).core.link = (W'.veh v).core.link by rw [core_veh h]
theorem core_vehs {W W' : CWorld} (h : W.core = W'.core) (l : ℕ) :
    (W.link l).vehs = (W'.link l).vehs :=
  show (W.link l).core.vehs = (W'.link l).core.vehs by rw [core_link h]
theorem core_arrived {W W' : CWorld} (h : W.core = W'.core) (l : ℕ) :
    (W.link l).arrived = (W'.link l).arrived :=
  show (W.link l).core.arrived = (W'.link l).core.arrived by rw [core_link h]
theorem core_incoming {W W' : CWorld} (h : W.core = W'.core) (n : ℕ) :
    (W.node n).incoming = (W'.node n).incoming :=
  show (W.node n).core.incoming = (W'.node n).core.incoming by rw [core_node h]
theorem core_genQ {W W' : CWorld} (h : W.core = W'.core) (n : ℕ) :
    (W.node n).genQ = (W'.node n).genQ :=
  show (W.node n).core.genQ = (W'.node n).core.genQ by rw [core_node h]

theorem core_setV_congr {W W' : CWorld} (hW : W.core = W'.core) (v : ℕ) {f g : CVeh → CVeh}
    (h : ∀ V V', V.core = V'.core → (f V).core = (g V').core) :
    (W.setV v f).core = (W'.setV v g).core := by
  refine ext' (show W.g = W'.g from core_g hW) (fun n => core_node hW n) (fun l => core_link hW l) (fun w => ?_)
  simp only [core, setV_veh]
  split
  · exact h _ _ (core_veh hW v)
  · exact core_veh hW w

theorem core_setL_congr {W W' : CWorld} (hW : W.core = W'.core) (l : ℕ) {f g : CLink → CLink}
    (h : ∀ L L', L.core = L'.core → (f L).core = (g L').core) :
    (W.setL l f).core = (W'.setL l g).core := by
  refine ext' (show W.g = W'.g from core_g hW) (fun n => core_node hW n) (fun m => ?_) (fun w => core_veh hW w)
  simp only [core, setL_link]
  split
  · exact h _ _ (core_link hW l)
  · exact core_link hW m

theorem core_setN_congr {W W' : CWorld} (hW : W.core = W'.core) (n : ℕ) {f g : CNode → CNode}
    (h : ∀ N N', N.core = N'.core → (f N).core = (g N').core) :
    (W.setN n f).core = (W'.setN n g).core := by
  refine ext' (show W.g = W'.g from core_g hW) (fun m => ?_) (fun l => core_link hW l) (fun w => core_veh hW w)
  simp only [core, setN_node]
  split
  · exact h _ _ (core_node hW n)
  · exact core_node hW m

theorem core_detach {W W' : CWorld} (hW : W.core = W'.core) (v : ℕ) :
    (W.detach v).core = (W'.detach v).core := by
  have hf : (W.veh v).follower = (W'.veh v).follower :=
    show (W.veh v).core.follower = (W'.veh v).core.follower by rw [core_veh hW]
  unfold detach
  rw [hf]
  split
  · exact core_setV_congr hW _ (fun V V' h => by
      show ({ V.core with leader := none } : CVeh) = { V'.core with leader := none }
      rw [h])
  · exact hW

/-! ## A vehicle that is in no buffer -/

/-- Members that the invariant only reads for vehicles in buffers may change. -/
theorem Inv.setFree {W : CWorld} {x y : Option ℕ} {v : ℕ} {f : CVeh → CVeh} (i : Inv W x y)
    (hf : ∀ V, (f V).link = V.link ∧ (f V).state = V.state ∧ (f V).leader = V.leader ∧
      (f V).follower = V.follower ∧ (f V).orig = V.orig ∧ (f V).dest = V.dest)
    (ha : ∀ l, v ∉ (W.link l).arrived)
    (hi : ∀ n, v ∈ (W.node n).incoming → y = some v)
    (hw : (f (W.veh v)).flagWait = true → (W.veh v).flagWait = true ∨
      ∃ l, v ∈ (W.link l).vehs ∧
        ((W.link l).dst = (W.veh v).dest ∨ (W.node (W.link l).dst).outLinks = [])) :
    Inv (W.setV v f) x y := by
  have e1 : ∀ w, ((W.setV v f).veh w).link = (W.veh w).link := fun w => by
    rw [setV_veh]; split
    · rename_i e; rw [(hf _).1, e]
    · rfl
  have e2 : ∀ w, ((W.setV v f).veh w).state = (W.veh w).state := fun w => by
    rw [setV_veh]; split
    · rename_i e; rw [(hf _).2.1, e]
    · rfl
  have e3 : ∀ w, ((W.setV v f).veh w).leader = (W.veh w).leader := fun w => by
    rw [setV_veh]; split
    · rename_i e; rw [(hf _).2.2.1, e]
    · rfl
  have e4 : ∀ w, ((W.setV v f).veh w).follower = (W.veh w).follower := fun w => by
    rw [setV_veh]; split
    · rename_i e; rw [(hf _).2.2.2.1, e]
    · rfl
  have e5 : ∀ w, ((W.setV v f).veh w).orig = (W.veh w).orig := fun w => by
    rw [setV_veh]; split
    · rename_i e; rw [(hf _).2.2.2.2.1, e]
    · rfl
  have e6 : ∀ w, ((W.setV v f).veh w).dest = (W.veh w).dest := fun w => by
    rw [setV_veh]; split
    · rename_i e; rw [(hf _).2.2.2.2.2, e]
    · rfl
  have e7 : ∀ w, ((W.setV v f).veh w).flagWait = true → (W.veh w).flagWait = true ∨
      ∃ l, w ∈ (W.link l).vehs ∧
        ((W.link l).dst = (W.veh w).dest ∨ (W.node (W.link l).dst).outLinks = []) := fun w h => by
    rw [setV_veh] at h; split at h
    · rename_i e; rw [e]; exact hw h
    · exact Or.inl h
  have hne : ∀ w, w ≠ v → (W.setV v f).veh w = W.veh w := fun w e => by rw [setV_veh, if_neg e]
  have off : ∀ {w : ℕ}, ((W.setV v f).veh w).flagWait = true → (W.veh w).flagWait = false →
      (W.veh w).state = .run := fun {w} h h0 => by
    rcases e7 w h with h' | ⟨l, h', _⟩
    · rw [h0] at h'; simp at h'
    · exact (i.mem l w h').2.1
  refine ⟨i.outL, i.inL, i.ends, ?_, ?_, ?_, ?_, i.nd, ?_, ?_, i.gnd, ?_, ?_, ?_, ?_, ?_, ?_, ?_, i.big⟩
  · intro w hw; rw [e5]; exact i.orig w hw
  · intro m w hw; rw [e1, e2]; exact i.mem m w hw
  · intro w hw; rw [e2]; exact i.run w hw
  · intro w hw; rw [e2, e1]; exact i.idle w hw
  · intro m hm; exact (i.linked m hm).congr (fun w _ => e3 w) (fun w _ => e4 w)
  · intro n w; rw [e2, e5]; exact i.gen n w
  · intro w hw hs
    rw [e2] at hs
    obtain ⟨a, b⟩ := i.fresh w hw hs
    refine ⟨by rw [e4]; exact a, ?_⟩
    cases hq : ((W.setV v f).veh w).flagWait with
    | false => rfl
    | true =>
      have := off hq b
      rw [this] at hs; simp at hs
  · intro w hx
    obtain ⟨a, b, c, d, l, hl, hlk⟩ := i.limbo w hx
    refine ⟨a, by rw [e2]; exact b, by rw [e4]; exact c, ?_, l, hl, by rw [e1]; exact hlk⟩
    cases hq : ((W.setV v f).veh w).flagWait with
    | false => rfl
    | true =>
      rcases e7 w hq with h | ⟨m, h, _⟩
      · rw [d] at h; simp at h
      · exact absurd hx (i.mem m w h).2.2.2.2
  · intro m w hw hq
    rw [e6]
    rcases e7 w hq with h | ⟨l, h, h'⟩
    · exact i.flag m w hw h
    · rw [i.uniq hw h]; exact h'
  · intro m w hw
    have : w ≠ v := fun e => ha m (e ▸ hw)
    rw [hne w this]
    exact i.arr m w hw
  · intro n w hw
    by_cases e : w = v
    · subst e; exact Or.inl (hi n hw)
    · rw [hne w e]; exact i.inc n w hw
  · intro w hw; rw [e2]; exact i.reg1 w hw
  · intro w hw; rw [e2]; exact i.reg2 w hw

/-- A vehicle that is not on a queue is in no buffer of arrivals. -/
theorem Inv.not_arrived {W : CWorld} {x y : Option ℕ} (i : Inv W x y) {v : ℕ}
    (h : ∀ l, v ∉ (W.link l).vehs) (l : ℕ) : v ∉ (W.link l).arrived :=
  fun hv => h l (i.arr l v hv).1

/-! ## Departure -/

/-- First half of `depart`: out of the generation queue, not yet on the link. -/
def CWorld.departPre (W : CWorld) (n v l : ℕ) : CWorld :=
  (W.setN n (fun N => { N with genQ := N.genQ.tail, runBuf := N.runBuf ++ [v] })).setV v
    (fun V => { V with state := .run, link := some l })

theorem Inv.departPre {W : CWorld} {y : Option ℕ} {n v l : ℕ} {t : List ℕ} (i : Inv W none y)
    (hq : (W.node n).genQ = v :: t) (hl : l < W.g.nLinks)
    (hinc : ∀ m, v ∈ (W.node m).incoming → y = some v ∨ (W.veh v).next = none) :
    Inv (W.departPre n v l) (some v) y := by
  obtain ⟨hvn, hst, hor⟩ := (i.gen n v).1 (by rw [hq]; simp)
  have hnn : n < W.g.nNodes := hor ▸ i.orig v hvn
  have hnot : ∀ m, v ∉ (W.link m).vehs := fun m hm => by
    have := (i.mem m v hm).2.1; rw [hst] at this; simp at this
  obtain ⟨hfo, hfw⟩ := i.fresh v hvn (Or.inr hst)
  have hveh : ∀ w, (W.departPre n v l).veh w =
      if w = v then { W.veh v with state := .run, link := some l } else W.veh w := fun w => by
    simp only [CWorld.departPre, setV_veh, setN_veh]
  have hvv : (W.departPre n v l).veh v = { W.veh v with state := .run, link := some l } := by
    rw [hveh, if_pos rfl]
  have hne : ∀ w, w ≠ v → (W.departPre n v l).veh w = W.veh w := fun w e => by rw [hveh, if_neg e]
  have hlink : (W.departPre n v l).link = W.link := rfl
  have hg : (W.departPre n v l).g = W.g := rfl
  have hnode : ∀ m, (W.departPre n v l).node m =
      if m = n then { W.node n with genQ := t, runBuf := (W.node n).runBuf ++ [v] } else W.node m := by
    intro m
    simp only [CWorld.departPre, setV_node, setN_node, hq, List.tail_cons]
  have hout : ∀ m, ((W.departPre n v l).node m).outLinks = (W.node m).outLinks := fun m => by
    rw [hnode]; split
    · rename_i e; rw [e]
    · rfl
  have hin : ∀ m, ((W.departPre n v l).node m).inLinks = (W.node m).inLinks := fun m => by
    rw [hnode]; split
    · rename_i e; rw [e]
    · rfl
  have hinc' : ∀ m, ((W.departPre n v l).node m).incoming = (W.node m).incoming := fun m => by
    rw [hnode]; split
    · rename_i e; rw [e]
    · rfl
  have hon : ∀ m w, w ∈ (W.link m).vehs → w ≠ v := fun m w hw e => hnot m (e ▸ hw)
  have htn : (v :: t).Nodup := hq ▸ i.gnd n
  refine ⟨?_, ?_, i.ends, ?_, ?_, ?_, ?_, i.nd, ?_, ?_, ?_, ?_, ?_, ?_, ?_, ?_, ?_, ?_, ?_⟩
  · intro m k; rw [hout]; exact i.outL m k
  · intro m k; rw [hin]; exact i.inL m k
  · intro w hw
    rw [hveh]; split
    · exact i.orig v hvn
    · exact i.orig w hw
  · intro m w hw
    have e := hon m w hw
    rw [hne w e]
    obtain ⟨a, b, c, d, _⟩ := i.mem m w hw
    exact ⟨a, b, c, d, fun h => e (Option.some.inj h).symm⟩
  · intro w hw hr
    by_cases e : w = v
    · exact Or.inl (by rw [e])
    · rw [hne w e] at hr
      rcases i.run w hw hr with h | h
      · simp at h
      · exact Or.inr h
  · intro w hw hr
    by_cases e : w = v
    · subst e; rw [hvv] at hr; simp at hr
    · rw [hne w e] at hr ⊢; exact i.idle w hw hr
  · intro m hm
    exact (i.linked m hm).congr (fun w hw => by simp only [hne w (hon m w hw)])
      (fun w hw => by simp only [hne w (hon m w hw)])
  · intro m w
    rw [hnode, hg]
    by_cases e : w = v
    · subst e
      rw [hvv]
      constructor
      · intro h
        split at h
        · exact absurd h (List.nodup_cons.1 htn).1
        · rename_i hm
          exact absurd ((i.gen m w).1 h).2.2 (by rw [hor]; exact fun e => hm e.symm)
      · rintro ⟨_, h, _⟩; simp at h
    · rw [hne w e]
      split
      · rename_i hm
        subst hm
        rw [← i.gen m w, hq]
        simp [e]
      · exact i.gen m w
  · intro m
    rw [hnode]; split
    · exact (List.nodup_cons.1 htn).2
    · exact i.gnd m
  · intro w hw hs
    by_cases e : w = v
    · subst e; rw [hvv] at hs; simp at hs
    · rw [hne w e] at hs ⊢; exact i.fresh w hw hs
  · intro w hw
    obtain rfl := Option.some.inj hw
    rw [hvv]
    exact ⟨hvn, rfl, hfo, hfw, l, hl, rfl⟩
  · intro m w hw hf
    rw [hne w (hon m w hw)] at hf ⊢
    rw [hout]; exact i.flag m w hw hf
  · intro m w hw
    have := i.arr m w hw
    rw [hne w (hon m w this.1), hout]
    exact this
  · intro m w hw
    rw [hinc'] at hw
    by_cases e : w = v
    · subst e
      rcases hinc m hw with h | h
      · exact Or.inl h
      · right; left; rw [hvv]; exact h
    · rw [hne w e, hout]; exact i.inc m w hw
  · intro w hw
    by_cases e : w = v
    · subst e
      rw [hvv]
      simp only [true_iff]
      refine ⟨Or.inr ⟨n, hnn, by rw [hnode, if_pos rfl]; simp⟩, fun k hk hmem => ?_⟩
      have := (i.reg2 w hw).2 (Or.inr ⟨k, hk, hmem⟩)
      rw [hst] at this; simp at this
    · rw [hne w e, hg, hlink, i.reg1 w hw]
      refine and_congr_left' (or_congr_right (exists_congr fun m => and_congr_right fun _ => ?_))
      rw [hnode]; split
      · rename_i hm; subst hm; simp [e]
      · rfl
  · intro w hw
    by_cases e : w = v
    · subst e
      rw [hvv]
      have := i.reg2 w hw
      rw [hst] at this
      rw [hg, hlink]
      simpa using this
    · rw [hne w e]; exact i.reg2 w hw
  · intro w hw
    obtain ⟨p, q, r⟩ := i.big w hw
    have e : w ≠ v := fun e => absurd (e ▸ hvn) (not_lt.2 hw)
    refine ⟨p, fun m => ?_, r⟩
    rw [hnode]; split
    · rename_i hm; subst hm; simp [e, q m]
    · exact q m

theorem core_attach {W W' : CWorld} (hW : W.core = W'.core) (v l : ℕ) :
    (W.attach v l).core = (W'.attach v l).core := by
  have hl : W.newLeader l = W'.newLeader l := by
    have h1 := core_vehs hW l
    have h2 : (W.link l).lanes = (W'.link l).lanes :=
      show (W.link l).core.lanes = (W'.link l).core.lanes by rw [core_link hW]
    simp only [newLeader, h1, h2]
  have key : ∀ V V' : CVeh, ∀ q q' : ℕ, V.core = V'.core →
      CVeh.core { V with lane := q, leader := none } = CVeh.core { V' with lane := q', leader := none } :=
    fun V V' q q' h => by
      show ({ V.core with lane := 0, leader := none } : CVeh) = { V'.core with lane := 0, leader := none }
      rw [h]
  rw [attach_eq, attach_eq, hl]
  cases W'.newLeader l with
  | none => exact core_setV_congr hW v (fun V V' h => key V V' _ _ h)
  | some u =>
    refine core_setV_congr (core_setV_congr (core_setV_congr hW v (fun V V' h => key V V' _ _ h)) v
      (fun V V' h => ?_)) u (fun V V' h => ?_)
    · show ({ V.core with leader := some u } : CVeh) = { V'.core with leader := some u }
      rw [h]
    · show ({ V.core with follower := some v } : CVeh) = { V'.core with follower := some v }
      rw [h]

theorem core_depart (W : CWorld) (n v l : ℕ) :
    (W.depart n v l).core = ((W.departPre n v l).enterQ v l).core := by
  simp only [depart, CWorld.enterQ, CWorld.departPre]
  refine core_setL_congr (core_attach (core_setV_congr rfl v (fun V V' h => ?_)) v l) l (fun L L' h => ?_)
  · show ({ V.core with state := .run, link := some l } : CVeh) = { V'.core with state := .run, link := some l }
    rw [h]
  · show ({ L.core with vehs := L.core.vehs ++ [v] } : CLink) = { L'.core with vehs := L'.core.vehs ++ [v] }
    rw [h]

theorem Keep.attach {W : CWorld} {v l : ℕ} (hv : (W.veh v).state ≠ .home)
    (hq : ∀ u ∈ (W.link l).vehs, (W.veh u).state ≠ .home) : Keep W (W.attach v l) := by
  rw [attach_eq]
  cases h : W.newLeader l with
  | none => exact Keep.setV (fun _ => rfl) hv
  | some u =>
    simp only
    refine Keep.thenV (Keep.thenV (Keep.thenV (Keep.refl W) (fun _ => rfl) hv) (fun _ => rfl) ?_)
      (fun _ => rfl) ?_
    · rw [setV_veh, if_pos rfl]; exact hv
    · have := hq u (newLeader_mem h)
      simp only [setV_veh]
      split
      · simpa using hv
      · exact this

theorem Keep.thenAttach {W W' : CWorld} {v l : ℕ} (k : Keep W W') (hv : (W'.veh v).state ≠ .home)
    (hq : ∀ u ∈ (W'.link l).vehs, (W'.veh u).state ≠ .home) : Keep W (W'.attach v l) :=
  k.trans (Keep.attach hv hq)

theorem Keep.depart {W : CWorld} {n v l : ℕ} (hv : (W.veh v).state ≠ .home)
    (hq : ∀ u ∈ (W.link l).vehs, (W.veh u).state ≠ .home) : Keep W (W.depart n v l) := by
  simp only [CWorld.depart]
  refine Keep.thenL (Keep.thenAttach (Keep.thenV (Keep.thenN (Keep.refl W) (fun _ => rfl))
    (fun _ => rfl) hv) ?_ ?_) (fun _ => rfl)
  · rw [setV_veh, if_pos rfl]; simp
  · intro u hu
    rw [setV_veh]
    split
    · simp
    · exact hq u hu

theorem Inv.run_ne_home {W : CWorld} {x y : Option ℕ} (i : Inv W x y) {l u : ℕ}
    (h : u ∈ (W.link l).vehs) : (W.veh u).state ≠ .home := by
  rw [(i.mem l u h).2.1]; simp

theorem Inv.depart {W : CWorld} {y : Option ℕ} {n v l : ℕ} {t : List ℕ} (i : Inv W none y)
    (hq : (W.node n).genQ = v :: t) (hl : l < W.g.nLinks)
    (hinc : ∀ m, v ∈ (W.node m).incoming → y = some v ∨ (W.veh v).next = none) :
    Inv (W.depart n v l) none y ∧ Keep W (W.depart n v l) := by
  have hst := ((i.gen n v).1 (by rw [hq]; simp)).2.1
  refine ⟨((i.departPre hq hl hinc).enterQ ?_).congr (core_depart W n v l).symm,
    Keep.depart (by rw [hst]; simp) (fun u hu => i.run_ne_home hu)⟩
  simp only [CWorld.departPre, setV_veh, if_pos]

/-! ## generate -/

theorem scanPick_mem {fl : ℚ → ℚ} {r : ℚ} {ps : List (ℚ × ℕ)} {acc : ℚ} {a : ℕ}
    (h : scanPick fl r acc ps = some a) : ∃ w, (w, a) ∈ ps := by
  induction ps generalizing acc with
  | nil => simp [scanPick] at h
  | cons p t ih =>
    obtain ⟨w, b⟩ := p
    simp only [scanPick] at h
    split at h
    · obtain rfl := Option.some.inj h; exact ⟨w, by simp⟩
    · obtain ⟨w', h'⟩ := ih h; exact ⟨w', by simp [h']⟩

theorem randomChoice_mem {fl : ℚ → ℚ} {items : List ℕ} {ws : List ℚ} {rng : ℕ → ℕ} {a : ℕ}
    (h : (randomChoice fl items ws rng).1 = some a) : a ∈ items := by
  unfold randomChoice at h
  split at h
  · simp at h
  · simp only at h
    split at h
    · exact List.mem_of_getElem? h
    · split at h
      · rename_i b hb
        obtain ⟨w, hw⟩ := scanPick_mem hb
        simp only at h
        obtain rfl := Option.some.inj h
        exact (List.of_mem_zip hw).2
      · exact List.mem_of_getLast? h

theorem firstMax_mem {ps : List (ℚ × ℕ)} {a : ℕ} (h : firstMax ps = some a) : ∃ w, (w, a) ∈ ps := by
  cases ps with
  | nil => simp [firstMax] at h
  | cons p ps =>
    simp only [firstMax, Option.some.injEq] at h
    have : ∀ (qs : List (ℚ × ℕ)) (b : ℚ × ℕ),
        qs.foldl (fun best q => if best.1 < q.1 then q else best) b ∈ b :: qs := by
      intro qs
      induction qs with
      | nil => simp
      | cons q t ih =>
        intro b
        rw [List.foldl_cons]
        split
        · have := ih q; simp only [List.mem_cons] at this ⊢; tauto
        · have := ih b; simp only [List.mem_cons] at this ⊢; tauto
    refine ⟨(ps.foldl (fun best q => if best.1 < q.1 then q else best) p).1, ?_⟩
    rw [← h]
    exact this ps p

theorem drawLink_mem {W : CWorld} {v : ℕ} {ls : List ℕ} {rng : ℕ → ℕ} {a : ℕ}
    (h : (W.drawLink v ls rng).1 = some a) : a ∈ ls := by
  unfold drawLink at h
  split at h
  · obtain ⟨w, hw⟩ := firstMax_mem h
    exact (List.of_mem_zip hw).2
  · exact randomChoice_mem h

theorem preferFilter_sub (W : CWorld) (v : ℕ) (ls : List ℕ) : W.preferFilter v ls ⊆ ls := by
  unfold preferFilter; split
  · exact List.Subset.refl _
  · exact List.filter_sublist.subset

theorem cyclicFilter_sub (W : CWorld) (v : ℕ) (ls : List ℕ) : W.cyclicFilter v ls ⊆ ls := by
  unfold cyclicFilter; split
  · split
    · exact List.Subset.refl _
    · exact List.filter_sublist.subset
  · exact List.Subset.refl _

theorem chooseNext_mem {W : CWorld} {v : ℕ} {ls : List ℕ} {rng rng' : ℕ → ℕ} {a : ℕ}
    (h : W.chooseNext v ls rng = .ok (some a, rng')) : a ∈ ls := by
  unfold chooseNext at h
  split at h
  · simp at h
  · split at h
    · split at h
      · simp at h
      · split at h
        · rename_i hm
          simp only [Except.ok.injEq, Prod.mk.injEq, Option.some.injEq] at h
          rw [← h.1]; exact hm
        · simp at h
    · simp only at h
      split at h
      · simp at h
      · simp only [Except.ok.injEq] at h
        have h1 := drawLink_mem (show (W.drawLink v _ rng).1 = some a by rw [h])
        exact preferFilter_sub W v ls (List.filter_sublist.subset (cyclicFilter_sub W v _ h1))

theorem chooseNext_nil {W : CWorld} {v : ℕ} {rng : ℕ → ℕ} :
    W.chooseNext v [] rng = .ok (none, rng) := by simp [chooseNext]

theorem Inv.genLoop {n : ℕ} (k : ℕ) {W : CWorld} (i : Inv W none none)
    (hinc : ∀ m, (W.node m).incoming = []) :
    Inv (CWorld.genLoop n k W) none none ∧ Keep W (CWorld.genLoop n k W) ∧
      ∀ m, ((CWorld.genLoop n k W).node m).incoming = [] := by
  induction k generalizing W with
  | zero => exact ⟨i, Keep.refl W, hinc⟩
  | succ k ih =>
    simp only [CWorld.genLoop]
    cases hq : (W.node n).genQ with
    | nil => exact ⟨i, Keep.refl W, hinc⟩
    | cons v t =>
      simp only
      obtain ⟨hvn, hst, hor⟩ := (i.gen n v).1 (by rw [hq]; simp)
      have hnot : ∀ m, v ∉ (W.link m).vehs := fun m hm => by
        have := (i.mem m v hm).2.1; rw [hst] at this; simp at this
      cases hc : W.chooseNext v (W.node n).outLinks (W.node n).rng with
      | error e =>
        simp only
        have hcore : (W.setN n (fun N => { N with exc := some e })).core = W.core :=
          core_setN (fun _ => rfl)
        refine ⟨i.congr hcore.symm, Keep.setN (fun _ => rfl), fun m => ?_⟩
        rw [core_incoming hcore m]; exact hinc m
      | ok p =>
        obtain ⟨o, rng⟩ := p
        simp only
        have hcore : (W.setN n (fun N => { N with rng := rng })).core = W.core :=
          core_setN (fun _ => rfl)
        have k0 : Keep W (W.setN n (fun N => { N with rng := rng })) := Keep.setN (fun _ => rfl)
        have i0 := i.congr hcore.symm
        have hinc0 : ∀ m, ((W.setN n (fun N => { N with rng := rng })).node m).incoming = [] :=
          fun m => by rw [core_incoming hcore m]; exact hinc m
        have hq0 : ((W.setN n (fun N => { N with rng := rng })).node n).genQ = v :: t := by
          rw [core_genQ hcore n]; exact hq
        have hst0 : ((W.setN n (fun N => { N with rng := rng })).veh v).state = .wait := hst
        have hnot0 : ∀ m, v ∉ ((W.setN n (fun N => { N with rng := rng })).link m).vehs := hnot
        have hg0 : (W.setN n (fun N => { N with rng := rng })).g = W.g := rfl
        generalize W.setN n (fun N => { N with rng := rng }) = W0 at *
        have i1 : Inv (W0.setV v (fun V => { V with next := o })) none none := by
          refine Inv.setFree i0 (fun V => ⟨rfl, rfl, rfl, rfl, rfl, rfl⟩) (i0.not_arrived hnot0) ?_
            (fun h => Or.inl h)
          intro m hm
          rw [hinc0 m] at hm
          simp at hm
        have k1 : Keep W (W0.setV v (fun V => { V with next := o })) :=
          Keep.thenV k0 (fun _ => rfl) (by rw [hst0]; simp)
        cases o with
        | none => exact ⟨i1, k1, hinc0⟩
        | some l =>
          simp only
          split
          · have hl : l < W.g.nLinks := ((i.outL n l).1 (chooseNext_mem hc)).1
            have hd := i1.depart (n := n) (v := v) (l := l) (t := t) hq0 (by rw [setV_g, hg0]; exact hl)
              (fun m hm => by rw [setV_node, hinc0 m] at hm; simp at hm)
            have hinc2 : ∀ m, (((W0.setV v (fun V => { V with next := some l })).depart n v l).node
                m).incoming = [] := by
              intro m
              rw [core_incoming (core_depart _ n v l) m]
              simp only [CWorld.enterQ, CWorld.departPre, setL_node, attach_node, setV_node, setN_node]
              have h0 := hinc0 m
              split
              · rename_i e; subst e; simpa using h0
              · exact h0
            obtain ⟨a, b, c⟩ := ih hd.1 hinc2
            exact ⟨a, k1.trans (hd.2.trans b), c⟩
          · exact ⟨i1, k1, hinc0⟩

end UX.Cpp
