import Verif.Proofs.Decomp2
import Verif.Model.Reach

/-! What each API call does to the world. -/

namespace UX
open World

/-- Result of `addNode`. -/
def World.addNodeRes (W : World) (a : NodeArgs) (ph : ℕ) (t soff : ℚ) : World :=
  let i := W.nNodes
  { W with
    nNodes := i + 1
    nodeDict := upd W.nodeDict a.name (some i)
    N := { W.N with
      name := upd W.N.name i a.name
      x := upd W.N.x i a.x
      y := upd W.N.y i a.y
      inlinks := upd W.N.inlinks i []
      outlinks := upd W.N.outlinks i []
      incoming := upd W.N.incoming i []
      genq := upd W.N.genq i []
      signal := upd W.N.signal i a.signal
      signalOffset := upd W.N.signalOffset i soff
      phase := upd W.N.phase i ph
      signalT := upd W.N.signalT i t
      signalLog := upd W.N.signalLog i []
      flowCap := upd W.N.flowCap i a.flowCap
      flowCapRem := upd W.N.flowCapRem i
        (match a.flowCap with | some c => W.fl (c * W.dt) | none => 100000000000)
      lanes := upd W.N.lanes i
        (match a.flowCap with
          | some c => some (match a.lanes with | some k => k | none => autoLanes W.cfg.fl c)
          | none => none) } }

theorem World.addNode_ok {W W' : World} {fuel a} (h : W.addNode fuel a = .ok W') :
    ∃ ph t soff, initSignal W.cfg.fl fuel a = .ok (ph, t, soff) ∧ W.nodeDict a.name = none ∧
      W' = W.addNodeRes a ph t soff := by
  unfold addNode at h
  split at h
  · simp at h
  · rename_i ph t soff hs
    split at h
    · simp at h
    · rename_i hn
      simp only [Except.ok.injEq] at h
      exact ⟨ph, t, soff, hs, hn, h.symm⟩

/-- The parameters of a new link. -/
structure LinkPar where
  kappa : ℚ
  tau : ℚ
  w : ℚ
  cap : ℚ
  delta : ℚ
  dpl : ℚ
  kstar : ℚ

/-- Result of `addLink`. -/
def World.addLinkRes (W : World) (a : LinkArgs) (s e : NodeId) (nm : String) (k : ℕ) (p : LinkPar) :
    World :=
  let i := W.nLinks
  let capOut := match a.capOut with | some c => c | none => W.fl (p.cap * 2)
  let capIn := match a.capIn with | some c => c | none => W.fl (p.cap * 2)
  let capInRem := match a.capIn with | some c => W.fl (c * W.dt) | none => W.fl (p.cap * 2)
  { W with
    nLinks := i + 1
    linkDict := upd W.linkDict nm (some i)
    N := { W.N with
      outlinks := upd W.N.outlinks s (W.N.outlinks s ++ [i])
      inlinks := upd W.N.inlinks e (W.N.inlinks e ++ [i]) }
    L := { W.L with
      name := upd W.L.name i nm
      startN := upd W.L.startN i s
      endN := upd W.L.endN i e
      length := upd W.L.length i a.length
      lanes := upd W.L.lanes i k
      u := upd W.L.u i a.u
      kappa := upd W.L.kappa i p.kappa
      tau := upd W.L.tau i p.tau
      w := upd W.L.w i p.w
      capacity := upd W.L.capacity i p.cap
      delta := upd W.L.delta i p.delta
      deltaPerLane := upd W.L.deltaPerLane i p.dpl
      qStar := upd W.L.qStar i p.cap
      kStar := upd W.L.kStar i p.kstar
      mergePriority := upd W.L.mergePriority i a.mergePriority
      signalGroup := upd W.L.signalGroup i a.signalGroup
      toll := upd W.L.toll i a.toll
      capOut := upd W.L.capOut i capOut
      capOutRem := upd W.L.capOutRem i (W.fl (capOut * W.dt))
      capIn := upd W.L.capIn i capIn
      capInRem := upd W.L.capInRem i capInRem
      vehs := upd W.L.vehs i []
      enterLog := upd W.L.enterLog i []
      ttInstant := upd W.L.ttInstant i []
      cumArr := upd W.L.cumArr i []
      cumDep := upd W.L.cumDep i []
      ttActual := upd W.L.ttActual i [] } }

theorem World.addLink_ok {W W' : World} {a : LinkArgs} (h : W.addLink a = .ok W') :
    ∃ s e nm, ∃ k : ℕ, ∃ p : LinkPar, W.getNode a.startN = .ok s ∧ W.getNode a.endN = .ok e ∧ a.lanes = (k : ℚ) ∧
      linkParams W.cfg.fl W.cfg.reactionTime k a.u
        (match a.jamPerLane with | some j => W.fl (j * a.lanes) | none => a.jamDensity) =
        .ok (p.kappa, p.tau, p.w, p.cap, p.delta, p.dpl, p.kstar) ∧
      nm = (match a.name with | some n => n | none => W.N.name s ++ "-" ++ W.N.name e) ∧
      W.linkDict nm = none ∧ W' = W.addLinkRes a s e nm k p := by
  unfold addLink at h
  rw [bind_ok] at h
  obtain ⟨s, hs, h⟩ := h
  rw [bind_ok] at h
  obtain ⟨e, he, h⟩ := h
  dsimp only at h
  split at h
  · simp [bind, Except.bind, throw, throwThe, MonadExceptOf.throw] at h
  · rename_i h1
    split at h
    · simp [bind, Except.bind, throw, throwThe, MonadExceptOf.throw] at h
    · rename_i h2
      rw [bind_ok] at h
      obtain ⟨⟨kappa, tau, w, cap, delta, dpl, kstar⟩, hp, h⟩ := h
      dsimp only at h
      have hk : a.lanes = (((pyInt a.lanes).toNat : ℕ) : ℚ) := by
        push Not at h1 h2
        have h3 : ((pyInt a.lanes).toNat : ℤ) = pyInt a.lanes := Int.toNat_of_nonneg h2
        have h4 : (((pyInt a.lanes).toNat : ℤ) : ℚ) = a.lanes := by rw [h3]; exact h1
        rw [Int.cast_natCast] at h4
        exact h4.symm
      refine ⟨s, e, _, (pyInt a.lanes).toNat, ⟨kappa, tau, w, cap, delta, dpl, kstar⟩, hs, he, hk,
        hp, rfl, ?_⟩
      split at h
      · simp [throw, throwThe, MonadExceptOf.throw] at h
      · rename_i hn
        simp only [pure_ok] at h
        exact ⟨hn, h.symm⟩

/-- Result of `addVehicle`. -/
def World.addVehRes (W : World) (a : VehArgs) (o : NodeId) (d : Option NodeId) (dep : ℤ)
    (pref : LinkId → Option ℚ) (cache : Option ℕ) (lp la : List LinkId) (nm : String) : World :=
  let i := W.nVeh
  { W with
    nVeh := i + 1
    vehDict := upd W.vehDict nm (some i)
    living := W.living ++ [i]
    prefCache := cache
    rng := fun j => W.rng (j + 3)
    V := { W.V with
      name := upd W.V.name i nm
      orig := upd W.V.orig i o
      dest := upd W.V.dest i d
      depTime := upd W.V.depTime i dep
      depSec := upd W.V.depSec i (W.fl (a.dep.arg * W.dt))
      arrTime := upd W.V.arrTime i (-1)
      linkArrTime := upd W.V.linkArrTime i (-1)
      travelTime := upd W.V.travelTime i (-1)
      state := upd W.V.state i .home
      link := upd W.V.link i none
      x := upd W.V.x i 0
      xNext := upd W.V.xNext i 0
      xOld := upd W.V.xOld i 0
      v := upd W.V.v i 0
      lane := upd W.V.lane i 0
      leader := upd W.V.leader i none
      follower := upd W.V.follower i none
      flagEnd := upd W.V.flagEnd i false
      moveRemain := upd W.V.moveRemain i 0
      principle := upd W.V.principle i (a.principle.getD W.cfg.principle)
      mode := upd W.V.mode i a.mode
      destList := upd W.V.destList i []
      nodeEvent := upd W.V.nodeEvent i (fun _ => none)
      pref := upd W.V.pref i (.dict pref)
      linksPrefer := upd W.V.linksPrefer i lp
      linksAvoid := upd W.V.linksAvoid i la
      specRoute := upd W.V.specRoute i none
      tripAbort := upd W.V.tripAbort i a.tripAbort
      flagAborted := upd W.V.flagAborted i false
      rnl := upd W.V.rnl i .unset
      logTLink := upd W.V.logTLink i [(pyInt (W.fl (dep * W.dt)), .home)]
      linkOld := upd W.V.linkOld i none
      dist := upd W.V.dist i 0
      log := upd W.V.log i [] } }

theorem World.addVehicle_ok {W W' : World} {a : VehArgs} (h : W.addVehicle a = .ok W') :
    ∃ o d dep pref cache lp la nm,
      W.getNode a.orig = .ok o ∧
      (match a.dest with | none => d = (none : Option NodeId) | some r => ∃ k, W.getNode r = .ok k ∧ d = some k) ∧
      dep = (match a.dep with | .step k => k | .sec t => pyInt (W.fl (t / W.dt))) ∧
      (pref, cache) = (match a.routePref with
        | some f => (f, W.prefCache)
        | none => match W.prefCache with
          | some k => (zeroDict k, some k)
          | none => (zeroDict W.nLinks, some W.nLinks)) ∧
      a.linksPrefer.mapM W.getLink = .ok lp ∧ a.linksAvoid.mapM W.getLink = .ok la ∧
      nm = (match a.name with | some n => n | none => toString W.nVeh) ∧
      W.vehDict nm = none ∧
      W' = W.addVehRes a o d dep pref cache lp la nm := by
  unfold addVehicle at h
  rw [bind_ok] at h
  obtain ⟨o, ho, h⟩ := h
  dsimp only at h
  have key : ∃ d, (match a.dest with | none => d = (none : Option NodeId) | some r => ∃ k, W.getNode r = .ok k ∧ d = some k) ∧
    (do
      let lp ← a.linksPrefer.mapM W.getLink
      let la ← a.linksAvoid.mapM W.getLink
      match W.vehDict (match a.name with | some n => n | none => toString W.nVeh) with
      | some _ => (throw Err.valueError : M World)
      | none => pure (W.addVehRes a o d
          (match a.dep with | .step k => k | .sec t => pyInt (W.fl (t / W.dt)))
          (match a.routePref with
            | some f => (f, W.prefCache)
            | none => match W.prefCache with
              | some k => (zeroDict k, some k)
              | none => (zeroDict W.nLinks, some W.nLinks)).1
          (match a.routePref with
            | some f => (f, W.prefCache)
            | none => match W.prefCache with
              | some k => (zeroDict k, some k)
              | none => (zeroDict W.nLinks, some W.nLinks)).2 lp la
          (match a.name with | some n => n | none => toString W.nVeh))) = .ok W' := by
    cases hd : a.dest with
    | none =>
      rw [hd] at h
      exact ⟨none, rfl, h⟩
    | some r =>
      rw [hd] at h
      dsimp only at h
      rw [bind_ok] at h
      obtain ⟨d, h1, h⟩ := h
      rw [map_ok] at h1
      obtain ⟨k, hk, rfl⟩ := h1
      exact ⟨some k, ⟨k, hk, rfl⟩, h⟩
  obtain ⟨d, hd, h⟩ := key
  rw [bind_ok] at h
  obtain ⟨lp, hlp, h⟩ := h
  rw [bind_ok] at h
  obtain ⟨la, hla, h⟩ := h
  split at h
  · simp [throw, throwThe, MonadExceptOf.throw] at h
  · rename_i hn
    simp only [pure_ok] at h
    exact ⟨o, d, _, _, _, lp, la, _, ho, hd, rfl, rfl, hlp, hla, rfl, hn, h.symm⟩

theorem World.adjustNodeCapacity_frame (W : World) (n : NodeId) :
    ∃ fc fr la, W.adjustNodeCapacity n =
      { W with N := { W.N with flowCap := fc, flowCapRem := fr, lanes := la } } := by
  unfold adjustNodeCapacity
  split
  · exact ⟨_, _, _, rfl⟩
  · dsimp only
    split <;> exact ⟨_, _, _, rfl⟩

/-- `finalize_scenario` changes the horizon, clock, travel-time arrays, routing tables and node
capacities. -/
theorem World.finalize_frame (W : World) (tmax : Option ℚ) :
    ∃ ts tta fc fr la, W.finalize tmax = { W with
      tmax := some (W.fixedTmax tmax), T := 0, time := 0, tsize := ts, finalized := true,
      avgSpeed := 0, avgCount := 0
      L := { W.L with ttActual := tta }
      N := { W.N with flowCap := fc, flowCapRem := fr, lanes := la }
      R := { dist := fun _ _ => some 0, next := fun _ _ => some 0, pref := fun _ _ => 0, record := fun _ => none } } := by
  unfold finalize
  dsimp only
  split
  · generalize List.range W.nNodes = ns
    generalize hW1 : ({ W with
      tmax := _, T := _, time := _, tsize := _, finalized := _, avgSpeed := _, avgCount := _
      L := _, R := _ } : World) = W1
    have : ∃ fc fr la, ns.foldl adjustNodeCapacity W1 =
        { W1 with N := { W1.N with flowCap := fc, flowCapRem := fr, lanes := la } } := by
      clear hW1
      induction ns generalizing W1 with
      | nil => exact ⟨_, _, _, rfl⟩
      | cons n ns ih =>
        obtain ⟨fc, fr, la, h⟩ := adjustNodeCapacity_frame W1 n
        obtain ⟨fc', fr', la', h'⟩ := ih (W1.adjustNodeCapacity n)
        refine ⟨fc', fr', la', ?_⟩
        rw [List.foldl_cons, h', h]
    obtain ⟨fc, fr, la, h⟩ := this
    rw [h, ← hW1]
    exact ⟨_, _, _, _, _, rfl⟩
  · exact ⟨_, _, _, _, _, rfl⟩

theorem Param.refl (W : World) : Param W W :=
  ⟨_, _, _, _, _, _, _, _, _, _, _, _, _, _, _, _, _, _, _, rfl, fun _ _ => rfl⟩

/-- Every API step is one of seven kinds. -/
theorem ApiStep.kinds {W W' : World} (h : ApiStep W W') :
    (W.finalized = false ∧ ∃ a ph t soff, W.nodeDict a.name = none ∧ W' = W.addNodeRes a ph t soff) ∨
    (W.finalized = false ∧ ∃ a, W.addLink a = .ok W') ∨
    (∃ a, W.addVehicle a = .ok W') ∨
    (W.finalized = false ∧ ∃ tmax, W' = W.finalize tmax) ∨
    (W.finalized = true ∧ W.T < W.tsize ∧ W.tick = .ok W') ∨ Soft W W' ∨ Param W W' := by
  cases h with
  | addNode hf h =>
    obtain ⟨ph, t, soff, _, hn, hr⟩ := addNode_ok h
    exact .inl ⟨hf, _, ph, t, soff, hn, hr⟩
  | addLink hf h => exact .inr (.inl ⟨hf, _, h⟩)
  | addVehicle h => exact .inr (.inr (.inl ⟨_, h⟩))
  | finalize hf => exact .inr (.inr (.inr (.inl ⟨hf, _, rfl⟩)))
  | tick hf hT h => exact .inr (.inr (.inr (.inr (.inl ⟨hf, hT, h⟩))))
  | endExec hf =>
    refine .inr (.inr (.inr (.inr (.inr (.inr ?_)))))
    exact ⟨_, _, _, _, _, _, _, _, _, _, _, _, _, _, _, _, _, _, _, rfl, fun _ _ => rfl⟩
  | overrideSignal =>
    refine .inr (.inr (.inr (.inr (.inr (.inr ?_)))))
    exact ⟨_, _, _, _, _, _, _, _, _, _, _, _, _, _, _, _, _, _, _, rfl, fun _ _ => rfl⟩
  | overrideSignalGroups _ h =>
    refine .inr (.inr (.inr (.inr (.inr (.inr ?_)))))
    unfold World.overrideSignalGroups at h
    split at h
    · simp at h
    · split at h
      · simp at h
      · simp only [Except.ok.injEq] at h
        subst h
        exact ⟨_, _, _, _, _, _, _, _, _, _, _, _, _, _, _, _, _, _, _, rfl, fun _ _ => rfl⟩
  | enforceRoute _ h =>
    refine .inr (.inr (.inr (.inr (.inr (.inr ?_)))))
    unfold World.enforceRoute at h
    rw [bind_ok] at h
    obtain ⟨r, _, h⟩ := h
    simp only [pure_ok] at h
    subst h
    exact ⟨_, _, _, _, _, _, _, _, _, _, _, _, _, _, _, _, _, _, _, rfl, fun _ _ => rfl⟩
  | setLinksPrefer _ h =>
    refine .inr (.inr (.inr (.inr (.inr (.inr ?_)))))
    unfold World.setLinksPrefer at h
    rw [bind_ok] at h
    obtain ⟨r, _, h⟩ := h
    simp only [pure_ok] at h
    subst h
    exact ⟨_, _, _, _, _, _, _, _, _, _, _, _, _, _, _, _, _, _, _, rfl, fun _ _ => rfl⟩
  | setLinksAvoid _ h =>
    refine .inr (.inr (.inr (.inr (.inr (.inr ?_)))))
    unfold World.setLinksAvoid at h
    rw [bind_ok] at h
    obtain ⟨r, _, h⟩ := h
    simp only [pure_ok] at h
    subst h
    exact ⟨_, _, _, _, _, _, _, _, _, _, _, _, _, _, _, _, _, _, _, rfl, fun _ _ => rfl⟩
  | addDest _ _ h => exact .inr (.inr (.inr (.inr (.inr (.inl (addDest_soft h))))))
  | addTripRequest h =>
    refine .inr (.inr (.inr (.inr (.inr (.inr ?_)))))
    unfold World.addTripRequest at h
    rw [bind_ok] at h
    obtain ⟨_, _, h⟩ := h
    rw [bind_ok] at h
    obtain ⟨_, _, h⟩ := h
    simp only [pure_ok] at h
    subst h
    exact ⟨_, _, _, _, _, _, _, _, _, _, _, _, _, _, _, _, _, _, _, rfl, fun _ _ => rfl⟩
  | @assignTaxi _ v r _ h =>
    refine .inr (.inr (.inr (.inr (.inr (.inl ?_)))))
    unfold World.assignTaxi at h
    split at h
    · simp at h
    · rw [bind_ok] at h
      obtain ⟨W1, h1, h⟩ := h
      simp only [pure_ok] at h
      subst h
      refine ((addDest_soft h1).trans (setEvent_soft W1 v (W1.H.orig r) (some (.getOn r)))).trans ?_
      exact ⟨_, _, _, _, _, _, _, rfl, fun _ _ => rfl⟩
  | setCapOut =>
    refine .inr (.inr (.inr (.inr (.inr (.inr ?_)))))
    exact ⟨_, _, _, _, _, _, _, _, _, _, _, _, _, _, _, _, _, _, _, rfl, fun _ _ => rfl⟩
  | setCapIn =>
    refine .inr (.inr (.inr (.inr (.inr (.inr ?_)))))
    exact ⟨_, _, _, _, _, _, _, _, _, _, _, _, _, _, _, _, _, _, _, rfl, fun _ _ => rfl⟩
  | changeFreeFlowSpeed _ h =>
    refine .inr (.inr (.inr (.inr (.inr (.inr ?_)))))
    unfold World.changeFreeFlowSpeed at h
    split at h
    · split at h
      · simp at h
      · dsimp only at h
        split at h
        · simp at h
        · simp only [Except.ok.injEq] at h
          subst h
          exact ⟨_, _, _, _, _, _, _, _, _, _, _, _, _, _, _, _, _, _, _, rfl, fun _ _ => rfl⟩
    · simp only [Except.ok.injEq] at h
      subst h; exact Param.refl W
  | @changeJamDensity _ l q _ he h =>
    refine .inr (.inr (.inr (.inr (.inr (.inr ?_)))))
    unfold World.changeJamDensity at h
    split at h
    · split at h
      · simp at h
      · dsimp only at h
        split at h
        · simp at h
        · simp only [Except.ok.injEq] at h
          subst h
          refine ⟨_, _, _, _, _, _, _, _, _, _, _, _, _, _, _, _, _, _, _, rfl, fun k hk => ?_⟩
          rw [upd_apply, if_neg]
          rintro rfl
          exact hk he
    · simp only [Except.ok.injEq] at h
      subst h; exact Param.refl W
  | reseed =>
    refine .inr (.inr (.inr (.inr (.inr (.inr ?_)))))
    exact ⟨_, _, _, _, _, _, _, _, _, _, _, _, _, _, _, _, _, _, _, rfl, fun _ _ => rfl⟩

theorem tick_ok {W W' : World} (h : W.tick = .ok W') :
    ∃ W1, W.step = .ok W1 ∧ W' = { W1 with T := W1.T + 1 } := by
  unfold tick at h
  rw [bind_ok] at h
  obtain ⟨W1, h1, h⟩ := h
  simp only [pure_ok] at h
  exact ⟨W1, h1, h.symm⟩

end UX
