import Verif.Proofs.CppDet
import Verif.Proofs.CppTrips
import Verif.Proofs.CppLifeInv
import Verif.Spec.CppDet
import Verif.Props.CppThreads

/-!
# Worlds built with other random streams
-/

namespace UX.Cpp
open CWorld Spec

variable {W V : CWorld} {a b : ℕ → ℕ → ℕ}

theorem SameButRng.rho (W : CWorld) (a b : ℕ → ℕ → ℕ) : SameButRng W (W.rho a b) :=
  ⟨rfl, fun _ => rfl, fun n => ⟨a n, rfl⟩, fun l => ⟨b l, rfl⟩⟩

/-- A world with other streams. -/
def Rho (W V : CWorld) : Prop := ∃ a b, V = W.rho a b

theorem rho_self (W : CWorld) : W.rho (fun n => (W.node n).rng) (fun l => (W.link l).rng) = W := rfl

theorem rho_edit (e : Edit) : (W.edit e).rho a b = (W.rho a b).edit e := by
  cases e with
  | capIn l q => exact rho_setL _ _ (fun _ _ => rfl)
  | capOut l q => exact rho_setL _ _ (fun _ _ => rfl)
  | capInRem l q => exact rho_setL _ _ (fun _ _ => rfl)
  | capOutRem l q => exact rho_setL _ _ (fun _ _ => rfl)
  | penalty l q => exact rho_setL _ _ (fun _ _ => rfl)
  | toll l q => exact rho_setL _ _ (fun _ _ => rfl)
  | freeFlow l q =>
    simp only [CWorld.edit, changeFreeFlow]
    split
    · exact rho_setL _ _ (fun _ _ => rfl)
    · rfl
  | jam l q =>
    simp only [CWorld.edit, changeJam]
    split
    · exact rho_setL _ _ (fun _ _ => rfl)
    · rfl
  | enforce v ls => rfl
  | prefer v ls => rfl
  | avoid v ls => rfl
  | tripAbort v c => rfl
  | signal n ints off p t => exact rho_setN _ _ (fun _ _ => rfl)
  | group l gs => exact rho_setL _ _ (fun _ _ => rfl)

theorem rho_adjustNode (W : CWorld) (n : ℕ) : (W.adjustNode n).rho a b = (W.rho a b).adjustNode n := by
  unfold adjustNode
  show CWorld.rho a b (if (W.node n).flowCap < 0 ∧ (W.node n).inLinks ≠ [] ∧ (W.node n).outLinks ≠ [] then _ else _) =
    if (W.node n).flowCap < 0 ∧ (W.node n).inLinks ≠ [] ∧ (W.node n).outLinks ≠ [] then _ else _
  have hm : ∀ ls, (W.rho a b).maxCap ls = W.maxCap ls := fun ls => by cases ls <;> rfl
  split
  · simp only [hm]
    exact rho_setN _ _ (fun _ _ => rfl)
  · rfl

theorem rho_initAdj : W.initAdj.rho a b = (W.rho a b).initAdj := by
  have h : ∀ (xs : List ℕ) (W : CWorld), (xs.foldl adjustNode W).rho a b = xs.foldl adjustNode (W.rho a b) := by
    intro xs
    induction xs with
    | nil => intro W; rfl
    | cons x t ih => intro W; rw [List.foldl_cons, List.foldl_cons, ih, rho_adjustNode]
  unfold initAdj
  have h2 : (if (W.rho a b).g.adjustCap = true then (List.range (W.rho a b).g.nNodes).foldl adjustNode (W.rho a b)
      else W.rho a b) = (if W.g.adjustCap = true then (List.range W.g.nNodes).foldl adjustNode W else W).rho a b := by
    show (if W.g.adjustCap = true then (List.range W.g.nNodes).foldl adjustNode (W.rho a b) else W.rho a b) = _
    rw [← h]
    split <;> rfl
  simp only
  rw [h2]
  rfl

theorem rho_setTMax (t : ℚ) : (W.setTMax t).rho a b = (W.rho a b).setTMax t := by
  unfold setTMax CWorld.rho
  simp only [CWorld.mk.injEq, true_and, and_true]
  refine funext fun l => ?_
  split <;> rfl

theorem Rho.addNodeWith (h : Rho W V) (p : ℕ × ℚ) (ints : List ℚ) (off cap : ℚ) (lanes : ℤ) (r r' : ℕ → ℕ) :
    Rho (W.addNodeWith p ints off cap lanes r) (V.addNodeWith p ints off cap lanes r') := by
  obtain ⟨a, b, rfl⟩ := h
  refine ⟨fun n => if n = W.g.nNodes then r' else a n, b, ?_⟩
  unfold CWorld.addNodeWith CWorld.rho
  simp only [CWorld.mk.injEq, true_and, and_true]
  funext n
  simp only [upd]
  split <;> rfl

theorem Rho.addLink (h : Rho W V) (src dst : ℕ) (x : LinkArgs) (r : ℕ → ℕ) :
    Rho (W.addLink src dst x) (V.addLink src dst { x with rng := r }) := by
  obtain ⟨a, b, rfl⟩ := h
  refine ⟨a, fun l => if l = W.g.nLinks then r else b l, ?_⟩
  simp only [CWorld.addLink]
  rw [rho_setN _ _ (fun _ _ => rfl), rho_setN _ _ (fun _ _ => rfl)]
  congr 1
  congr 1
  unfold CWorld.rho
  simp only [CWorld.mk.injEq, true_and, and_true]
  funext n
  simp only [upd]
  split <;> rfl

theorem CReach.run_rho (hW : CReach W) (hV : CReach V) (hd : W.g.hardDet = true) (h : Rho W V)
    {s s' : ℕ → CWorld → Sched} (hs : ∀ t V, (s t V).Valid V) (hs' : ∀ t V, (s' t V).Valid V) (endTs : ℕ) :
    Rho (W.mainLoop s endTs).1 (V.mainLoop s' endTs).1 ∧ (V.mainLoop s' endTs).2 = (W.mainLoop s endTs).2 := by
  rw [C80_order hW hs seqSched_valid endTs, C80_order hV hs' seqSched_valid endTs]
  obtain ⟨a, b, rfl⟩ := h
  rw [rho_mainLoop W hd endTs]
  exact ⟨⟨a, b, rfl⟩, rfl⟩

theorem fix_hardDet {g g' : CGlob} (h : g.fix = g'.fix) : g.hardDet = g'.hardDet :=
  (congrArg CGlob.hardDet h : g.fix.hardDet = g'.fix.hardDet)

theorem mainLoop_hardDet (hW : CReach W) {s : ℕ → CWorld → Sched} (hs : ∀ t V, (s t V).Valid V) (endTs : ℕ) :
    (W.mainLoop s endTs).1.g.hardDet = W.g.hardDet :=
  (mainLoop_evs hW.rest (fun t V _ => (hs t V).2.2.2.1.nodup_iff.2 List.nodup_range) endTs).lift
    (P := fun X => X.g.hardDet = W.g.hardDet) (fun _ _ e h => (fix_hardDet e.fix).trans h) rfl

theorem Spec.Twins.left (h : Twins W V) : CReach W := by
  induction h with
  | empty fl tMax deltaN tau duoTime duoWeight noise hardDet gradual noCyclic adjustCap logMode ttInterval =>
    exact CReach.empty fl tMax deltaN tau duoTime duoWeight noise hardDet gradual noCyclic adjustCap logMode ttInterval
  | node ints off cap lanes r r' fuel _ h1 h2 ih => exact CReach.step ih (CStep.node _ _ ints off cap lanes r fuel h1)
  | link src dst x r _ h1 h2 h3 h4 ih => exact CReach.step ih (CStep.link _ src dst x h1 h2 h3 h4)
  | vehicle dep orig dest prefer _ h1 h2 ih => exact CReach.step ih (CStep.vehicle _ dep orig dest prefer h1 h2)
  | tmax t _ ih => exact CReach.step ih (CStep.tmax _ t)
  | init _ ih => exact CReach.step ih (CStep.init _)
  | edit e _ ih => exact CReach.step ih (CStep.edit _ e)
  | run endTs s s' hT hs hs' ih => exact CReach.step ih (CStep.run _ endTs s hs)

theorem Spec.Twins.rho (h : Twins W V) (hd : W.g.hardDet = true) : CReach W ∧ CReach V ∧ Rho W V := by
  induction h with
  | empty fl tMax deltaN tau duoTime duoWeight noise hardDet gradual noCyclic adjustCap logMode ttInterval =>
    have := CReach.empty fl tMax deltaN tau duoTime duoWeight noise hardDet gradual noCyclic adjustCap logMode ttInterval
    exact ⟨this, this, _, _, (rho_self _).symm⟩
  | @node W V W' V' ints off cap lanes r r' fuel _ h1 h2 ih =>
    have h1' := h1
    have h2' := h2
    unfold CWorld.addNode at h1' h2'
    rw [Option.map_eq_some_iff] at h1' h2'
    obtain ⟨p, e, rfl⟩ := h1'
    obtain ⟨q, e', rfl⟩ := h2'
    obtain ⟨a, b, c⟩ := ih hd
    refine ⟨CReach.step a (CStep.node _ _ ints off cap lanes r fuel h1),
      CReach.step b (CStep.node _ _ ints off cap lanes r' fuel h2), ?_⟩
    have hfl : V.g.fl = W.g.fl := by obtain ⟨_, _, rfl⟩ := c; rfl
    rw [hfl, e] at e'
    rw [← Option.some.inj e']
    exact c.addNodeWith p ints off cap lanes r r'
  | @link W V src dst x r _ h1 h2 h3 h4 ih =>
    obtain ⟨a, b, c⟩ := ih hd
    have hq : V.g = W.g ∧ V.veh = W.veh := by obtain ⟨_, _, rfl⟩ := c; exact ⟨rfl, rfl⟩
    exact ⟨CReach.step a (CStep.link W src dst x h1 h2 h3 h4),
      CReach.step b (CStep.link V src dst { x with rng := r } (by rw [hq.1]; exact h1) (by rw [hq.1]; exact h2) h3
        (by rw [hq.1, hq.2]; exact h4)), c.addLink src dst x r⟩
  | @vehicle W V dep orig dest prefer _ h1 h2 ih =>
    obtain ⟨a, b, c⟩ := ih hd
    have hq : V.g = W.g := by obtain ⟨_, _, rfl⟩ := c; rfl
    refine ⟨CReach.step a (CStep.vehicle W dep orig dest prefer h1 h2),
      CReach.step b (CStep.vehicle V dep orig dest prefer (by rw [hq]; exact h1) (by rw [hq]; exact h2)), ?_⟩
    obtain ⟨x, y, rfl⟩ := c
    exact ⟨x, y, rfl⟩
  | @tmax W V t _ ih =>
    obtain ⟨a, b, c⟩ := ih hd
    refine ⟨CReach.step a (CStep.tmax W t), CReach.step b (CStep.tmax V t), ?_⟩
    obtain ⟨x, y, rfl⟩ := c
    exact ⟨x, y, (rho_setTMax t).symm⟩
  | @init W V _ ih =>
    obtain ⟨a, b, c⟩ := ih ((fix_hardDet (initAdj_same W).2.2.1).symm.trans hd)
    refine ⟨CReach.step a (CStep.init W), CReach.step b (CStep.init V), ?_⟩
    obtain ⟨x, y, rfl⟩ := c
    exact ⟨x, y, rho_initAdj.symm⟩
  | @edit W V e _ ih =>
    obtain ⟨a, b, c⟩ := ih (by rw [edit_g] at hd; exact hd)
    refine ⟨CReach.step a (CStep.edit W e), CReach.step b (CStep.edit V e), ?_⟩
    obtain ⟨x, y, rfl⟩ := c
    exact ⟨x, y, (rho_edit e).symm⟩
  | @run W V endTs s s' hT hs hs' ih =>
    have hd0 : W.g.hardDet = true := by
      rw [mainLoop_hardDet hT.left hs endTs] at hd
      exact hd
    obtain ⟨a, b, c⟩ := ih hd0
    exact ⟨CReach.step a (CStep.run W endTs s hs), CReach.step b (CStep.run V endTs s' hs'),
      (a.run_rho b hd0 c hs hs' endTs).1⟩

end UX.Cpp
