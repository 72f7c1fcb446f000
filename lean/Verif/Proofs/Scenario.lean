import Verif.Model.Scenario
import Verif.Proofs.Areas
import Verif.Proofs.Inv

/-!
# Reloading a saved scenario
-/

namespace UX
open World Relation

theorem unlessDefault_getD {α : Type} [DecidableEq α] (d v : α) : (unlessDefault d v).getD d = v := by
  unfold unlessDefault; split <;> simp_all

theorem map_ok' {α β : Type} {m : M α} {f : α → β} {b : β} : m.map f = .ok b ↔ ∃ a, m = .ok a ∧ f a = b := by
  cases m <;> simp [Except.map]

/-! ## Constructors succeed -/

theorem addNode_of {W : World} {fuel : ℕ} {a : NodeArgs} {ph t soff}
    (h1 : initSignal W.cfg.fl fuel a = .ok (ph, t, soff)) (h2 : W.nodeDict a.name = none) :
    W.addNode fuel a = .ok (W.addNodeRes a ph t soff) := by
  unfold addNode; rw [h1]; dsimp only; rw [h2]; rfl

theorem addLink_of {W : World} {a : LinkArgs} {s e k nm} {p : LinkPar} (hs : W.getNode a.startN = .ok s)
    (he : W.getNode a.endN = .ok e) (hk : a.lanes = (k : ℕ))
    (hp : linkParams W.cfg.fl W.cfg.reactionTime k a.u
        (match a.jamPerLane with | some j => W.fl (j * a.lanes) | none => a.jamDensity) =
        .ok (p.kappa, p.tau, p.w, p.cap, p.delta, p.dpl, p.kstar))
    (hn : nm = (match a.name with | some n => n | none => W.N.name s ++ "-" ++ W.N.name e))
    (hd : W.linkDict nm = none) : W.addLink a = .ok (W.addLinkRes a s e nm k p) := by
  unfold addLink
  rw [hs, he]
  have hi : pyInt a.lanes = k := by rw [hk, pyInt, if_pos (Nat.cast_nonneg k)]; exact Int.floor_natCast k
  simp only [bind, Except.bind, hi]
  rw [if_neg (by rw [hk]; simp), if_neg (by omega)]
  simp only [Int.toNat_natCast, pure, Except.pure]
  subst hn
  cases hj : a.jamPerLane <;> cases hm : a.name <;> simp only [hj, hm] at hp hd ⊢ <;>
    rw [hp] <;> dsimp only <;> rw [hd] <;> rfl

theorem findPhase_fuel {fl : ℚ → ℚ} {sg : List ℚ} : ∀ {k m : ℕ} {off : ℚ} {i : ℕ} {r}, k ≤ m →
    findPhase fl sg k off i = .ok r → findPhase fl sg m off i = .ok r
  | 0, _, _, _, _, _, h => by simp [findPhase] at h
  | k + 1, 0, _, _, _, hm, _ => by omega
  | k + 1, m + 1, off, i, r, hm, h => by
    unfold findPhase at h ⊢
    split at h
    · cases h
    · split at h
      · rename_i h1; rw [if_pos h1]; exact h
      · rename_i h1; rw [if_neg h1]; exact findPhase_fuel (by omega) h

/-- The signal of a reloaded node is that of the original. -/
theorem initSignal_reload {fl : ℚ → ℚ} {fuel m : ℕ} {a b : NodeArgs} {ph t soff}
    (h : initSignal fl fuel a = .ok (ph, t, soff)) (hs : b.signal = a.signal)
    (ho : b.signalOffset = soff) (hold : b.signalOffsetOld = none) (hm : fuel ≤ m) :
    initSignal fl m b = .ok (ph, t, soff) := by
  unfold initSignal at h ⊢
  rw [hs, hold]
  simp only at h ⊢
  subst ho
  split at h
  · rename_i h1
    simp only [Except.ok.injEq, Prod.mk.injEq] at h
    obtain ⟨rfl, rfl, -⟩ := h
    rw [if_pos h1]
  · rename_i h1
    rw [if_neg h1]
    split at h
    · rename_i i t' h2
      simp only [Except.ok.injEq, Prod.mk.injEq] at h
      obtain ⟨rfl, rfl, h3⟩ := h
      rw [h3] at h2
      rw [findPhase_fuel hm h2]
    · cases h

/-! ## What a loaded network looks like -/

/-- `W` after saving and loading, with random numbers `r`: the unused inflow capacity is the inflow
capacity of one step. -/
def World.norm (W : World) (r : ℕ → ℕ) : World :=
  { W with rng := r, L := { W.L with capInRem := fun l =>
      if l < W.nLinks then (W.fl (W.L.capIn l * W.dt)) else 0 } }

def Scn.norm (S : Scn) (r : ℕ → ℕ) : Scn := { S with W := S.W.norm r }

theorem norm_addNodeRes (W : World) (r a ph t soff) :
    (W.norm r).addNodeRes a ph t soff = (W.addNodeRes a ph t soff).norm r := rfl

theorem upd_comm {α β : Type} [DecidableEq α] (f : α → β) {i j : α} (h : i ≠ j) (a b : β) :
    upd (upd f i a) j b = upd (upd f j b) i a := by
  funext k; simp only [upd_apply]; split <;> split <;> simp_all

/-- Adding a node does not touch what a link needs. -/
theorem addNode_addLink {A A1 B : World} {a : LinkArgs} {fuel : ℕ} {n : NodeArgs} (hi : NInv A)
    (h1 : A.addLink a = .ok A1) (h2 : A.addNode fuel n = .ok B) :
    ∃ D, B.addLink a = .ok D ∧ A1.addNode fuel n = .ok D := by
  obtain ⟨s, e, nm, k, p, hs, he, hk, hp, hn, hd, rfl⟩ := addLink_ok h1
  obtain ⟨ph, t, soff, h3, h4, rfl⟩ := addNode_ok h2
  have hs' := hi.getNode_lt hs
  have he' := hi.getNode_lt he
  have get : ∀ r j, A.getNode r = .ok j → (A.addNodeRes n ph t soff).getNode r = .ok j := by
    intro r j h
    unfold getNode at h ⊢
    cases r with
    | obj i =>
      dsimp only at h ⊢
      split at h
      · cases h
        rename_i hlt
        exact if_pos (Nat.lt_succ_of_lt hlt)
      · cases h
    | name x =>
      dsimp only at h ⊢
      have : (A.addNodeRes n ph t soff).nodeDict x = A.nodeDict x := by
        refine upd_ne _ _ ?_
        rintro rfl
        rw [h4] at h; cases h
      rw [this]; exact h
  have hnm : ∀ j < A.nNodes, (A.addNodeRes n ph t soff).N.name j = A.N.name j := fun j hj =>
    upd_ne _ _ (Nat.ne_of_lt hj)
  refine ⟨_, addLink_of (get _ _ hs) (get _ _ he) hk hp
    (by rw [hnm _ hs', hnm _ he']; exact hn) hd, ?_⟩
  rw [addNode_of (W := A.addLinkRes a s e nm k p) h3 h4]
  have o : ∀ (f : NodeId → List LinkId) (j : NodeId) (x : List LinkId → List LinkId), j < A.nNodes →
      upd (upd f j (x (f j))) A.nNodes [] =
      upd (upd f A.nNodes []) j (x (upd f A.nNodes [] j)) := by
    intro f j x hj
    rw [upd_ne _ _ (Nat.ne_of_lt hj), upd_comm _ (Nat.ne_of_lt hj)]
  have o1 := o A.N.outlinks s (· ++ [A.nLinks]) hs'
  have o2 := o A.N.inlinks e (· ++ [A.nLinks]) he'
  simp only [addNodeRes, addLinkRes, Except.ok.injEq]
  rw [o1, o2]
  rfl

/-- A call that builds the network. -/
inductive NetCmd
  | node (fuel : ℕ) (a : NodeArgs) | link (a : LinkArgs)

def NetCmd.run (S : Scn) : NetCmd → M Scn
  | .node fuel a => S.addNode fuel a
  | .link a => S.addLink a

theorem links_addNode {fuel : ℕ} {n : NodeArgs} : ∀ {ls : List SavedLink} {A C : Scn} {B : World},
    Reachable Any A.W → A.W.finalized = false → ls.foldlM (fun S l => S.addLink l.args) A = .ok C →
    A.W.addNode fuel n = .ok B →
    ∃ D, ls.foldlM (fun S l => S.addLink l.args) { A with W := B } = .ok { C with W := D } ∧
      C.W.addNode fuel n = .ok D
  | [], A, C, B, _, _, h, hB => by
    simp at h; subst h
    exact ⟨B, by simp, hB⟩
  | l :: ls, A, C, B, hr, hf, h, hB => by
    rw [List.foldlM_cons, bind_ok] at h
    obtain ⟨A1, h1, h2⟩ := h
    obtain ⟨w, hw, rfl⟩ := map_ok'.1 h1
    obtain ⟨D1, hd1, hd2⟩ := addNode_addLink hr.inv.n hw hB
    have hnl : B.nLinks = A.W.nLinks := by
      obtain ⟨ph, t, soff, -, -, rfl⟩ := addNode_ok hB; rfl
    have hf' : w.finalized = false := by
      obtain ⟨s, e, nm, k, p, -, -, -, -, -, -, rfl⟩ := addLink_ok hw; exact hf
    obtain ⟨D, e1, e2⟩ := links_addNode (.next hr (.addLink hf hw) trivial) hf' h2 hd2
    refine ⟨D, ?_, e2⟩
    rw [List.foldlM_cons, bind_ok]
    refine ⟨_, map_ok'.2 ⟨D1, hd1, rfl⟩, ?_⟩
    rw [← e1]
    simp only [hnl]

theorem links_frame {ls : List SavedLink} {A C : Scn} (h : ls.foldlM (fun S l => S.addLink l.args) A = .ok C) :
    C.W.nodeDict = A.W.nodeDict ∧ C.W.cfg = A.W.cfg := by
  refine foldlM_inv (P := fun S => S.W.nodeDict = A.W.nodeDict ∧ S.W.cfg = A.W.cfg)
    (fun s l s' _ hP hs => ?_) ⟨rfl, rfl⟩ h
  obtain ⟨W', hW, rfl⟩ := map_ok'.1 hs
  obtain ⟨s, e, nm, k, p, -, -, -, -, -, -, rfl⟩ := addLink_ok hW
  exact hP

theorem savedLink_args (S : Scn) (l : LinkId) : (S.saveLink l).args =
    { name := some (S.W.L.name l), startN := .name (S.W.N.name (S.W.L.startN l)),
      endN := .name (S.W.N.name (S.W.L.endN l)), length := S.W.L.length l, u := S.W.L.u l,
      jamDensity := S.jam l, jamPerLane := S.jamPerLane l, lanes := S.W.L.lanes l,
      mergePriority := S.W.L.mergePriority l, signalGroup := S.W.L.signalGroup l,
      capOut := some (S.W.L.capOut l), capIn := some (S.W.L.capIn l), toll := S.W.L.toll l } := by
  simp only [SavedLink.args, Scn.saveLink, unlessDefault_getD]

theorem savedNode_args (S : Scn) (i : NodeId) : (S.saveNode i).args =
    { name := S.W.N.name i, x := S.W.N.x i, y := S.W.N.y i, signal := S.W.N.signal i,
      signalOffset := S.W.N.signalOffset i, flowCap := S.W.N.flowCap i, lanes := S.W.N.lanes i } := by
  simp only [SavedNode.args, Scn.saveNode, unlessDefault_getD]

/-- What can be said of a network under construction and its saved form. -/
structure Reload (S : Scn) (cfg : Config) (tmax : Option ℚ) : Prop where
  reach : Reachable Any S.W
  unfinal : S.W.finalized = false
  info : S.info = []
  load : ∃ f0, ∀ fuel ≥ f0, ∀ r, ∃ A,
    S.save.nodes.foldlM (fun S n => S.addNode fuel n.args) (Scn.new cfg tmax r) = .ok A ∧
    S.save.links.foldlM (fun S l => S.addLink l.args) A = .ok (S.norm r) ∧
    Reachable Any A.W ∧ A.W.finalized = false

theorem Reload.new (cfg : Config) (tmax : Option ℚ) (rng : ℕ → ℕ) : Reload (Scn.new cfg tmax rng) cfg tmax := by
  refine ⟨.new trivial, rfl, rfl, 0, fun fuel _ r => ⟨Scn.new cfg tmax r, rfl, ?_, .new trivial, rfl⟩⟩
  have : (Scn.new cfg tmax rng).save.links = [] := rfl
  rw [this]
  simp only [List.foldlM_nil, pure_ok]
  simp [Scn.norm, World.norm, Scn.new, World.new]

theorem Reload.node {S S' : Scn} {cfg tmax fuel a} (h : Reload S cfg tmax) (hr : S.addNode fuel a = .ok S') :
    Reload S' cfg tmax := by
  obtain ⟨W', hW, rfl⟩ := map_ok'.1 hr
  obtain ⟨f0, hl⟩ := h.load
  have hr' : Reachable Any W' := .next h.reach (.addNode h.unfinal hW) trivial
  obtain ⟨ph, t, soff, h1, h2, rfl⟩ := addNode_ok hW
  refine ⟨hr', h.unfinal, h.info, max f0 fuel, fun m hm r => ?_⟩
  obtain ⟨A, hA, hC, hAr, hAf⟩ := hl m (le_of_max_le_left hm) r
  have en : ({ S with W := S.W.addNodeRes a ph t soff } : Scn).save.nodes =
      S.save.nodes ++ [({ S with W := S.W.addNodeRes a ph t soff } : Scn).saveNode S.W.nNodes] := by
    show List.map _ (List.range (S.W.nNodes + 1)) = List.map _ (List.range S.W.nNodes) ++ _
    rw [List.range_succ, List.map_append, List.map_singleton]
    congr 1
    refine List.map_congr_left fun i hi => ?_
    have : i ≠ S.W.nNodes := Nat.ne_of_lt (List.mem_range.1 hi)
    simp only [Scn.saveNode, addNodeRes, upd_ne _ _ this]
  have el : ({ S with W := S.W.addNodeRes a ph t soff } : Scn).save.links = S.save.links := by
    refine List.map_congr_left fun l hl => ?_
    obtain ⟨g1, g2⟩ := h.reach.inv.s.ends_lt l (List.mem_range.1 hl)
    have h1 : S.W.L.startN l ≠ S.W.nNodes := Nat.ne_of_lt g1
    have h2 : S.W.L.endN l ≠ S.W.nNodes := Nat.ne_of_lt g2
    simp only [Scn.saveLink, addNodeRes, upd_ne _ _ h1, upd_ne _ _ h2]
  obtain ⟨q1, q2⟩ := links_frame hC
  generalize hb : (({ S with W := S.W.addNodeRes a ph t soff } : Scn).saveNode S.W.nNodes).args = b at *
  rw [savedNode_args] at hb
  have hbn : A.W.nodeDict b.name = none := by
    rw [← q1, ← hb]
    show S.W.nodeDict (upd S.W.N.name S.W.nNodes a.name S.W.nNodes) = none
    rw [upd_same]; exact h2
  have hbs : initSignal A.W.cfg.fl m b = .ok (ph, t, soff) := by
    rw [← q2]
    refine initSignal_reload h1 ?_ ?_ ?_ (le_of_max_le_right hm)
    · rw [← hb]; exact upd_same _ _ _
    · rw [← hb]; exact upd_same _ _ _
    · rw [← hb]
  have hB := addNode_of hbs hbn
  obtain ⟨D, e1, e2⟩ := links_addNode hAr hAf hC hB
  refine ⟨{ A with W := A.W.addNodeRes b ph t soff }, ?_, ?_, .next hAr (.addNode hAf hB) trivial, hAf⟩
  · rw [en, List.foldlM_append, bind_ok]
    refine ⟨A, hA, ?_⟩
    simp only [List.foldlM_cons, List.foldlM_nil, bind_pure]
    rw [show (({ S with W := S.W.addNodeRes a ph t soff } : Scn).saveNode S.W.nNodes).args = b from
      (savedNode_args _ _).trans hb]
    exact map_ok'.2 ⟨_, hB, rfl⟩
  · rw [el, e1]
    congr 1
    have : D = (S.W.addNodeRes a ph t soff).norm r := by
      have hd := addNode_of (W := (S.norm r).W) (fuel := m) (a := b) (by rw [q2]; exact hbs) (by rw [q1]; exact hbn)
      rw [e2] at hd
      cases hd
      rw [show (S.norm r).W = S.W.norm r from rfl, norm_addNodeRes]
      congr 1
      rw [← hb]
      simp only [addNodeRes, upd_same]
      cases a.flowCap <;> rfl
    rw [this]; rfl

theorem Reload.link {S S' : Scn} {cfg tmax a} (h : Reload S cfg tmax) (hr : S.addLink a = .ok S') :
    Reload S' cfg tmax := by
  obtain ⟨W', hW, rfl⟩ := map_ok'.1 hr
  obtain ⟨f0, hl⟩ := h.load
  have hr' : Reachable Any W' := .next h.reach (.addLink h.unfinal hW) trivial
  obtain ⟨s, e, nm, k, p, hs, he, hk, hp, hn, hd, rfl⟩ := addLink_ok hW
  have hs' := h.reach.inv.n.getNode_lt hs
  have he' := h.reach.inv.n.getNode_lt he
  refine ⟨hr', h.unfinal, h.info, f0, fun m hm r => ?_⟩
  obtain ⟨A, hA, hC, hAr, hAf⟩ := hl m hm r
  refine ⟨A, hA, ?_, hAr, hAf⟩
  set S1 : Scn := { S with
    W := S.W.addLinkRes a s e nm k p
    jam := upd S.jam S.W.nLinks a.jamDensity
    jamPerLane := upd S.jamPerLane S.W.nLinks a.jamPerLane } with hS1
  have el : S1.save.links = S.save.links ++ [S1.saveLink S.W.nLinks] := by
    show List.map _ (List.range (S.W.nLinks + 1)) = List.map _ (List.range S.W.nLinks) ++ _
    rw [List.range_succ, List.map_append, List.map_singleton]
    congr 1
    refine List.map_congr_left fun i hi => ?_
    have : i ≠ S.W.nLinks := Nat.ne_of_lt (List.mem_range.1 hi)
    simp only [Scn.saveLink, hS1, addLinkRes, upd_ne _ _ this]
  rw [el, List.foldlM_append, bind_ok]
  refine ⟨_, hC, ?_⟩
  simp only [List.foldlM_cons, List.foldlM_nil, bind_pure]
  have hnode : ∀ j < S.W.nNodes, (S.norm r).W.getNode (.name (S.W.N.name j)) = .ok j := by
    intro j hj
    show (match S.W.nodeDict (S.W.N.name j) with | some i => Except.ok i | none => Except.error Err.exception) = .ok j
    rw [(h.reach.inv.n.node _ _).2 ⟨hj, rfl⟩]
  have hargs : (S1.saveLink S.W.nLinks).args = { a with
      name := some nm, startN := .name (S.W.N.name s), endN := .name (S.W.N.name e),
      capOut := some (S1.W.L.capOut S.W.nLinks), capIn := some (S1.W.L.capIn S.W.nLinks) } := by
    rw [savedLink_args]
    simp only [hS1, addLinkRes, upd_same, hk]
  rw [hargs]
  refine map_ok'.2 ⟨_, addLink_of (p := p) (hnode s hs') (hnode e he') hk hp rfl hd, ?_⟩
  simp only [Scn.norm, hS1, World.norm, Scn.mk.injEq, and_true]
  simp only [addLinkRes, upd_same]
  congr 2
  funext l
  simp only [upd_apply]
  by_cases hl : l = S.W.nLinks
  · subst hl; simp; rfl
  · have : l < S.W.nLinks + 1 ↔ l < S.W.nLinks :=
      ⟨fun g => Nat.lt_of_le_of_ne (Nat.le_of_lt_succ g) hl, Nat.lt_succ_of_lt⟩
    simp [hl, this]; rfl

end UX
