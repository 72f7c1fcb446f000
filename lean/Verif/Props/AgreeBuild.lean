import Verif.Spec.AgreeBuild
import Verif.Props.Demand
import Verif.Props.Agree
import Verif.Proofs.Api

/-!
# Building the same scenario in both engines (C129)
-/

namespace UX
open Agree Cpp

section build
variable {P P' : World} {C C' : CWorld}

/-- Empty worlds hold the same traffic. -/
theorem C129_start (cfg : Config) (tmax : Option ℚ) (rng : ℕ → ℕ) (tMax duoTime duoWeight noise : ℚ)
    (gradual noCyclic adjustCap logMode : Bool) (tt : ℕ) :
    SameBuilt (World.new cfg tmax rng)
      (CWorld.empty cfg.fl tMax cfg.deltan cfg.reactionTime duoTime duoWeight noise cfg.hardDet gradual
        noCyclic adjustCap logMode tt) where
  fl := rfl
  tau := rfl
  dt := rfl
  dn := rfl
  time := rfl
  det := rfl
  nodes := rfl
  links := rfl
  vehs := rfl
  link _ h := absurd h (Nat.not_lt_zero _)
  veh _ h := absurd h (Nat.not_lt_zero _)
  node _ h := absurd h (Nat.not_lt_zero _)
  orig _ h := absurd h (Nat.not_lt_zero _)
  depart _ h := absurd h (Nat.not_lt_zero _)
  alive _ h := absurd h (Nat.not_lt_zero _)
  wait _ h := absurd h (Nat.not_lt_zero _)
  flow _ h := absurd h (Nat.not_lt_zero _)
  times _ h := absurd h (Nat.not_lt_zero _)
  real _ _ h := by rcases h with h | h <;> cases h
  quiet := ⟨fun _ h => absurd h (Nat.not_lt_zero _), fun _ h => absurd h (Nat.not_lt_zero _)⟩

/-- Both searches for the initial phase give the same phase and clock. -/
theorem sigLoop_of_findPhase (fl : ℚ → ℚ) (sig : List ℚ) : ∀ (fuel i : ℕ) (off : ℚ) (r : ℕ × ℚ),
    World.findPhase fl sig fuel off i = .ok r → CWorld.sigLoop fl sig fuel i off = some r
  | 0, _, _, _, h => by simp [World.findPhase] at h
  | k + 1, i, off, r, h => by
    rw [World.findPhase] at h
    rw [CWorld.sigLoop]
    cases hg : sig[i]? with
    | none => rw [hg] at h; cases h
    | some g =>
      have hd : sig.getD i 0 = g := by rw [List.getD_eq_getElem?_getD, hg]; rfl
      rw [hg] at h
      rw [hd]
      dsimp only at h
      split at h
      · rename_i hlt; rw [if_pos hlt]; cases h; rfl
      · rename_i hlt; rw [if_neg hlt]; exact sigLoop_of_findPhase fl sig k _ _ r h

/-- A node starts in the same phase with the same clock in both engines. -/
theorem C129_signal (fl : ℚ → ℚ) (fuel : ℕ) (a : World.NodeArgs) (ph : ℕ) (t soff : ℚ)
    (h : World.initSignal fl fuel a = .ok (ph, t, soff)) :
    soff = cppOffset fl a ∧ CWorld.sigInit fl a.signal (cppOffset fl a) fuel = some (ph, t) := by
  unfold World.initSignal at h
  extract_lets cyc so at h
  have hso : so = cppOffset fl a := by
    simp only [so, cyc, cppOffset, World.cycleLength]
    cases a.signalOffsetOld <;> rfl
  split at h
  · rename_i h0
    simp only [Except.ok.injEq, Prod.mk.injEq] at h
    obtain ⟨rfl, rfl, rfl⟩ := h
    refine ⟨hso, ?_⟩
    rw [h0]; simp [CWorld.sigInit]
  · rename_i h0
    cases hf : World.findPhase fl a.signal fuel (fl (cyc - so)) 0 with
    | error e => rw [hf] at h; cases h
    | ok r =>
      rw [hf] at h
      obtain ⟨i, t'⟩ := r
      simp only [Except.ok.injEq, Prod.mk.injEq] at h
      obtain ⟨rfl, rfl, rfl⟩ := h
      refine ⟨hso, ?_⟩
      have := sigLoop_of_findPhase fl a.signal fuel 0 _ _ hf
      rw [hso] at this
      unfold CWorld.sigInit
      rw [if_pos, show a.signal.foldl (fun s q => fl (s + q)) 0 = cyc from rfl]
      · exact this
      · match hs : a.signal, h0 with
        | [], _ =>
          exfalso
          rw [hs] at hf
          cases fuel <;> simp [World.findPhase] at hf
        | [g], h0 => right; refine ⟨rfl, ?_⟩; intro hg; apply h0; simp at hg; rw [hg]
        | _ :: _ :: _, _ => left; simp

/-- `addNode` makes the same node in both engines. -/
theorem C129_node (h : SameBuilt P C) (a : World.NodeArgs) (rng : ℕ → ℕ) (fuel : ℕ)
    (hp : PlainNode P.cfg.fl a) (h1 : P.addNode fuel a = .ok P') :
    ∃ C', C.addNode a.signal (cppOffset P.cfg.fl a) (cppCap a) (cppLanes a) rng fuel = some C' ∧
      SameBuilt P' C' := by
  unfold World.addNode at h1
  cases hi : World.initSignal P.cfg.fl fuel a with
  | error e => rw [hi] at h1; cases h1
  | ok r =>
    obtain ⟨ph, t, soff⟩ := r
    obtain ⟨-, hs⟩ := C129_signal _ _ _ _ _ _ hi
    rw [hi] at h1
    dsimp only at h1
    split at h1
    · cases h1
    · rw [Except.ok.injEq] at h1
      refine ⟨C.addNodeWith (ph, t) a.signal (cppOffset P.cfg.fl a) (cppCap a) (cppLanes a) rng, ?_, ?_⟩
      · unfold CWorld.addNode; rw [h.fl, hs]; rfl
      · subst h1
        refine ⟨h.fl, h.tau, h.dt, h.dn, h.time, h.det, ?_, h.links, h.vehs, h.link, h.veh, ?_, h.orig,
          h.depart, h.alive, ?_, h.flow, h.times, ?_, ⟨?_, h.quiet.2⟩⟩
        · exact congrArg (· + 1) h.nodes
        · intro n hn
          by_cases hne : n = P.nNodes
          · subst hne
            simp only [pNode, cNode, CWorld.addNodeWith, h.nodes, upd_same]
            cases hc : a.flowCap with
            | none => simp [cppCap, hc]
            | some c =>
              obtain ⟨hc0, hid, hl⟩ := hp c hc
              have hdt : P.dt = P.cfg.reactionTime * P.cfg.deltan := by
                show P.cfg.deltat = _
                unfold Config.deltat; rw [hid]; rfl
              have hlanes : 0 < ⌈c / (4 / 5)⌉ := Int.ceil_pos.mpr (by positivity)
              cases hk : a.lanes with
              | none =>
                simp only [cppCap, cppLanes, hc, hk, h.fl, hid, h.tau, h.dn, World.fl, hdt, hc0.le, id,
                  World.autoLanes, CWorld.autoLanes, if_true, NodeView.mk.injEq, true_and]
                simp only [reduceCtorEq, if_false, Option.getD_some]
                refine ⟨by ring, ?_⟩
                simp [hlanes, hlanes.le]
              | some k =>
                have := hl k hk
                simp only [cppCap, cppLanes, hc, hk, h.fl, hid, h.tau, h.dn, World.fl, hdt, hc0.le, id,
                  if_true, NodeView.mk.injEq, true_and]
                simp only [reduceCtorEq, if_false, Option.getD_some]
                refine ⟨by ring, ?_⟩
                have hk0 : ¬ ((k : ℤ) ≤ 0) := by omega
                have hk1 : k ≠ 0 := by omega
                simp [hk1, this]
          · have hlt : n < P.nNodes := by
              have : n < P.nNodes + 1 := hn
              omega
            have := h.node n hlt
            simp only [pNode, CWorld.addNodeWith, h.nodes, upd_ne _ _ hne] at this ⊢
            exact this
        · intro n hn
          by_cases hne : n = P.nNodes
          · subst hne; simp only [CWorld.addNodeWith, h.nodes, upd_same]
          · have hlt : n < P.nNodes := by
              have : n < P.nNodes + 1 := hn
              omega
            simp only [CWorld.addNodeWith, h.nodes, upd_ne _ _ hne]
            exact h.wait n hlt
        · intro n l hl
          refine h.real n l ?_
          by_cases hne : n = P.nNodes
          · subst hne
            simp [upd_same] at hl
          · simpa only [upd_ne _ _ hne] using hl
        · intro n hn
          by_cases hne : n = P.nNodes
          · subst hne; simp only [upd_same, and_self]
          · have hlt : n < P.nNodes := by
              have : n < P.nNodes + 1 := hn
              omega
            simp only [upd_ne _ _ hne]
            exact h.quiet.1 n hlt

/-- `addLink` makes the same link in both engines and enters it at the same nodes. -/
theorem C129_link (h : SameBuilt P C) (a : World.LinkArgs) (rng : ℕ → ℕ) (s e : ℕ)
    (hp : PlainLink P.cfg.fl a) (hs : P.getNode a.startN = .ok s) (he : P.getNode a.endN = .ok e)
    (h1 : P.addLink a = .ok P') : SameBuilt P' (C.addLink s e (cppLink P.cfg.fl a rng)) := by
  obtain ⟨hk, hco, hci⟩ := hp
  obtain ⟨s', e', nm, k, p, hs', he', hl, hpar, -, -, rfl⟩ := World.addLink_ok h1
  rw [hs] at hs'; cases hs'
  rw [he] at he'; cases he'
  have hlk : (pyInt a.lanes).toNat = k := by
    rw [hl, show ((k : ℕ) : ℚ) = ((k : ℤ) : ℚ) by push_cast; rfl, pyInt_intCast]; rfl
  have hk' : ¬ (cppLink P.cfg.fl a rng).kappa ≤ 0 := by
    simp only [cppLink]
    cases hj : a.jamPerLane <;> rw [hj] at hk <;> exact not_le.mpr hk
  replace hpar : World.linkParams P.cfg.fl P.cfg.reactionTime k a.u (cppLink P.cfg.fl a rng).kappa =
      .ok (p.kappa, p.tau, p.w, p.cap, p.delta, p.dpl, p.kstar) := by
    rw [← hpar]
    simp only [cppLink]
    cases a.jamPerLane <;> rfl
  generalize hK : (cppLink P.cfg.fl a rng).kappa = K at hpar hk'
  unfold World.linkParams at hpar
  split at hpar
  · cases hpar
  dsimp only at hpar
  split at hpar
  · cases hpar
  split at hpar
  · cases hpar
  simp only [Except.ok.injEq, Prod.mk.injEq] at hpar
  obtain ⟨hkap, htau, hw, hcap, hdel, hdpl, -⟩ := hpar
  have hcap' : CWorld.capOf P.cfg.fl a.u (P.cfg.fl (P.cfg.fl (1 / P.cfg.fl (P.cfg.reactionTime / k)) / K)) K =
      p.cap := hcap
  refine ⟨h.fl, h.tau, h.dt, h.dn, h.time, h.det, h.nodes, congrArg (· + 1) h.links, h.vehs, ?_, h.veh, ?_,
    h.orig, h.depart, h.alive, ?_, ?_, ?_, ?_, ⟨h.quiet.1, ?_⟩⟩
  · intro l hlt
    by_cases hne : l = P.nLinks
    · subst hne
      show _ = cLink (upd C.link C.g.nLinks (C.newLink s e (cppLink P.cfg.fl a rng)) P.nLinks)
      rw [h.links, upd_same]
      unfold CWorld.newLink
      rw [h.fl, h.tau, h.dt, hK]
      simp only [if_neg hk', pLink, cLink, World.addLinkRes, upd_same]
      simp only [cppLink, hlk, hcap', hdpl, LinkView.mk.injEq, true_and, and_true, World.fl, World.dt]
      cases ho : a.capOut with
      | none =>
        cases hi : a.capIn with
        | none => simp
        | some d => have := hci d hi; simp [not_lt.mpr this]
      | some c =>
        have h0 := hco c ho
        cases hi : a.capIn with
        | none => simp [not_lt.mpr h0]
        | some d => have := hci d hi; simp [not_lt.mpr this, not_lt.mpr h0]
    · have hlt' : l < P.nLinks := by
        have : l < P.nLinks + 1 := hlt
        omega
      show _ = cLink (upd C.link C.g.nLinks (C.newLink s e (cppLink P.cfg.fl a rng)) l)
      rw [h.links, upd_ne _ _ hne, ← h.link l hlt']
      simp only [pLink, World.addLinkRes, upd_ne _ _ hne]
  · intro n hn
    have := h.node n hn
    simp only [pNode, cNode, NodeView.mk.injEq] at this
    obtain ⟨b1, b2, b3, b4, b5, b6, b7, b8, b9⟩ := this
    simp only [pNode, cNode, World.addLinkRes, CWorld.addLink, CWorld.setN, upd, NodeView.mk.injEq, h.links]
    by_cases g1 : n = s <;> by_cases g2 : n = e <;> (try subst g1) <;> (try subst g2) <;> simp_all
  · intro n hn
    have := h.wait n hn
    simp only [World.addLinkRes, CWorld.addLink, CWorld.setN, upd]
    by_cases g1 : n = s <;> by_cases g2 : n = e <;> (try subst g1) <;> (try subst g2) <;> simp_all
  · intro l hlt
    show _ = (upd C.link C.g.nLinks (C.newLink s e (cppLink P.cfg.fl a rng)) l).kappa ∧
      _ = (upd C.link C.g.nLinks (C.newLink s e (cppLink P.cfg.fl a rng)) l).tau ∧
      _ = (upd C.link C.g.nLinks (C.newLink s e (cppLink P.cfg.fl a rng)) l).bws ∧
      _ = (upd C.link C.g.nLinks (C.newLink s e (cppLink P.cfg.fl a rng)) l).cap ∧
      _ = (upd C.link C.g.nLinks (C.newLink s e (cppLink P.cfg.fl a rng)) l).delta
    by_cases hne : l = P.nLinks
    · subst hne
      rw [h.links, upd_same]
      unfold CWorld.newLink
      rw [h.fl, h.tau, hK]
      simp only [if_neg hk', World.addLinkRes, upd_same]
      simp only [cppLink, hlk]
      exact ⟨hkap.symm, htau.symm, hw.symm, hcap.symm, hdel.symm⟩
    · have hlt' : l < P.nLinks := by
        have : l < P.nLinks + 1 := hlt
        omega
      simp only [World.addLinkRes, h.links, upd_ne _ _ hne]
      exact h.flow l hlt'
  · intro l hlt
    show ∃ m, (upd C.link C.g.nLinks (C.newLink s e (cppLink P.cfg.fl a rng)) l).ttReal = _
    by_cases hne : l = P.nLinks
    · subst hne
      refine ⟨C.g.totalSteps, ?_⟩
      rw [h.links, upd_same]
      simp only [World.addLinkRes, upd_same, CWorld.newLink, cppLink, h.fl]
    · have hlt' : l < P.nLinks := by
        have : l < P.nLinks + 1 := hlt
        omega
      simp only [World.addLinkRes, h.links, upd_ne _ _ hne]
      exact h.times l hlt'
  · intro n l hl
    show l < P.nLinks + 1
    have := h.real n l
    simp only [World.addLinkRes, upd] at hl
    by_cases g1 : n = s <;> by_cases g2 : n = e <;> simp [g1, g2] at hl this <;> grind
  · intro l hlt
    show (upd C.link C.g.nLinks (C.newLink s e (cppLink P.cfg.fl a rng)) l).arrived = _
    by_cases hne : l = P.nLinks
    · subst hne
      rw [h.links, upd_same]
      rfl
    · have hlt' : l < P.nLinks := by
        have : l < P.nLinks + 1 := hlt
        omega
      rw [h.links, upd_ne _ _ hne]
      exact h.quiet.2 l hlt'

/-- `addVehicle` makes the same vehicle in both engines. -/
theorem C129_vehicle (h : SameBuilt P C) (a : World.VehArgs) (d : ℚ) (r : Ref) (o e : ℕ)
    (prefer : List ℕ) (hab : a.tripAbort = true) (hr : a.dest = some r) (ho : P.getNode a.orig = .ok o)
    (he : P.getNode r = .ok e) (hd : DepartsAt P.cfg d a.dep) (h1 : P.addVehicle a = .ok P') :
    SameBuilt P' (C.addVehicle d o e prefer) := by
  obtain ⟨o', d', dep, pref, cache, lp, la, nm, ho', hd', hdep, -, -, -, -, -, rfl⟩ :=
    World.addVehicle_ok h1
  rw [ho] at ho'; cases ho'
  rw [hr] at hd'
  obtain ⟨k, hk, rfl⟩ := hd'
  rw [he] at hk; cases hk
  have hdd : d = P.cfg.fl (dep * P.cfg.deltat) := by
    rw [hdep]
    cases ht : a.dep with
    | step k => rw [ht] at hd; exact hd
    | sec t =>
      rw [ht] at hd
      obtain ⟨rfl, hid, hne, k, rfl⟩ := hd
      show _ = P.cfg.fl ((pyInt (P.cfg.fl (k * P.cfg.deltat / P.cfg.deltat)) : ℤ) * P.cfg.deltat)
      rw [hid, mul_div_assoc, div_self hne, mul_one]
      show _ = ((pyInt (k : ℚ) : ℤ) : ℚ) * P.cfg.deltat
      rw [pyInt_intCast]
  have hlt : ∀ v, v < P.nVeh + 1 → v ≠ P.nVeh → v < P.nVeh := fun v h1 h2 => by omega
  refine ⟨h.fl, h.tau, h.dt, h.dn, h.time, h.det, h.nodes, h.links, congrArg (· + 1) h.vehs, h.link, ?_,
    h.node, ?_, ?_, ?_, h.wait, h.flow, h.times, h.real, h.quiet⟩ <;> intro v hv <;> by_cases hne : v = P.nVeh
  · subst hne
    simp only [pVeh, cVeh, World.addVehRes, CWorld.addVehicle, CWorld.newVeh, h.vehs, upd_same, hab, live,
      Option.map_none, Bool.and_false]
  · have := h.veh v (hlt v hv hne)
    simp only [pVeh, World.addVehRes, CWorld.addVehicle, h.vehs, upd_ne _ _ hne] at this ⊢
    exact this
  · subst hne
    simp only [World.addVehRes, CWorld.addVehicle, CWorld.newVeh, h.vehs, upd_same]
  · simp only [World.addVehRes, CWorld.addVehicle, h.vehs, upd_ne _ _ hne]
    exact h.orig v (hlt v hv hne)
  · subst hne
    simp only [World.addVehRes, CWorld.addVehicle, CWorld.newVeh, h.vehs, upd_same]
    exact hdd
  · simp only [World.addVehRes, CWorld.addVehicle, h.vehs, upd_ne _ _ hne]
    exact h.depart v (hlt v hv hne)
  · subst hne
    simp only [World.addVehRes, CWorld.addVehicle, h.vehs, upd_same]
    simp
  · have := h.alive v (hlt v hv hne)
    simp only [World.addVehRes, CWorld.addVehicle, h.vehs, upd_ne _ _ hne, List.mem_append,
      List.mem_singleton, hne, or_false]
    exact this

/-- More rounds of the inner loop do not change its result. -/
theorem demandWhile_more {a e : ℕ} {ts : ℤ} {q : List ℕ} : ∀ {k m : ℕ} {x : CWorld × ℚ} {r},
    CWorld.demandWhile a e q ts k x = some r → k ≤ m → CWorld.demandWhile a e q ts m x = some r
  | 0, _, _, _, h, _ => by simp [CWorld.demandWhile] at h
  | k + 1, 0, _, _, _, hm => absurd hm (Nat.not_succ_le_zero k)
  | k + 1, m + 1, (C, f), r, h, hm => by
    rw [CWorld.demandWhile] at h ⊢
    split_ifs at h ⊢
    · exact demandWhile_more h (Nat.le_of_succ_le_succ hm)
    · exact h

theorem demandFor_more {a e : ℕ} {q : List ℕ} {flow : ℚ} {k m : ℕ} (hm : k ≤ m) :
    ∀ {n : ℕ} {ts : ℤ} {x : CWorld × ℚ} {r}, CWorld.demandFor a e q flow k n ts x = some r →
      CWorld.demandFor a e q flow m n ts x = some r
  | 0, _, _, _, h => by rw [CWorld.demandFor] at h ⊢; exact h
  | n + 1, ts, (C, f), r, h => by
    rw [CWorld.demandFor, Option.bind_eq_some_iff] at h ⊢
    obtain ⟨y, h1, h2⟩ := h
    exact ⟨y, demandWhile_more h1 hm, demandFor_more hm h2⟩

theorem demandWhile_same {o d : Ref} {a e : ℕ} {t : ℤ} : ∀ {k : ℕ} {P P' : World} {C : CWorld} {f f' : ℚ},
    SameBuilt P C → P.getNode o = .ok a → P.getNode d = .ok e →
    World.demandWhile o d t k P f = .ok (P', f') →
    ∃ C', CWorld.demandWhile a e [] t (k + 1) (C, f) = some (C', f') ∧ SameBuilt P' C' ∧
      P'.cfg = P.cfg ∧ P'.getNode o = .ok a ∧ P'.getNode d = .ok e
  | k, P, P', C, f, f', h, ho, hd, hr => by
    rw [CWorld.demandWhile]
    have hdn : (P.dn : ℚ) = C.g.deltaN := h.dn.symm
    by_cases hf : (P.dn : ℚ) ≤ f
    · rw [if_pos (hdn ▸ hf)]
      cases k with
      | zero => rw [World.demandWhile, if_pos hf] at hr; cases hr
      | succ k =>
        rw [World.demandWhile, if_pos hf] at hr
        cases hv : P.addVehicle { orig := o, dest := some d, dep := .step t } with
        | error x => rw [hv] at hr; cases hr
        | ok P1 =>
          rw [hv] at hr
          have hB := C129_vehicle h { orig := o, dest := some d, dep := .step t } (P.cfg.fl (t * P.cfg.deltat)) d a e [] rfl rfl ho hd rfl hv
          have hg : (∀ r, P1.getNode r = P.getNode r) ∧ P1.cfg = P.cfg := by
            obtain ⟨_, _, _, _, _, _, _, _, -, -, -, -, -, -, -, -, rfl⟩ := World.addVehicle_ok hv
            exact ⟨fun r => by cases r <;> rfl, rfl⟩
          obtain ⟨C', e1, e2, e3, e4, e5⟩ := demandWhile_same hB ((hg.1 o).trans ho) ((hg.1 d).trans hd) hr
          refine ⟨C', ?_, e2, e3.trans hg.2, e4, e5⟩
          rw [h.fl, h.dt, ← hdn]
          exact e1
    · rw [if_neg (hdn ▸ hf)]
      have : World.demandWhile o d t k P f = .ok (P, f) := by
        cases k <;> rw [World.demandWhile, if_neg hf]
      rw [this] at hr
      cases hr
      exact ⟨C, rfl, h, rfl, ho, hd⟩

theorem pyRange_map (a b : ℤ) : World.pyRange a b = (List.range (b - a).toNat).map (fun k : ℕ => a + (k : ℤ)) := by
  unfold World.pyRange
  induction (b - a).toNat with
  | zero => rfl
  | succ n ih => simp only [List.range_succ, List.map_append] at ih ⊢; rw [← ih]; simp

theorem demandLoop_same {o d : Ref} {a e : ℕ} {flow : ℚ} : ∀ {n : ℕ} {ts : ℤ} {P P' : World} {C : CWorld} {f f' : ℚ},
    SameBuilt P C → P.getNode o = .ok a → P.getNode d = .ok e →
    World.demandLoop o d flow ((List.range n).map (fun k : ℕ => ts + k)) P f = .ok (P', f') →
    ∃ fuel C', CWorld.demandFor a e [] flow fuel n ts (C, f) = some (C', f') ∧ SameBuilt P' C'
  | 0, ts, P, P', C, f, f', h, ho, hd, hr => by
    simp only [List.range_zero, List.map_nil, World.demandLoop] at hr
    cases hr
    exact ⟨0, C, rfl, h⟩
  | n + 1, ts, P, P', C, f, f', h, ho, hd, hr => by
    have hl : (List.range (n + 1)).map (fun k : ℕ => ts + (k : ℤ)) =
        ts :: (List.range n).map (fun k : ℕ => (ts + 1) + (k : ℤ)) := by
      rw [List.range_succ_eq_map, List.map_cons, List.map_map]
      congr 1
      · simp
      · apply List.map_congr_left
        intro k _
        simp only [Function.comp, Nat.succ_eq_add_one]; push_cast; ring
    rw [hl, World.demandLoop] at hr
    split at hr
    · rename_i P1 f1 h1
      obtain ⟨C1, e1, hB, -, ho1, hd1⟩ := demandWhile_same h ho hd h1
      obtain ⟨fuel, C2, e2, hC⟩ := demandLoop_same hB ho1 hd1 hr
      refine ⟨max fuel (⌊P.fl (f + P.fl (flow * P.dt)) / P.dn⌋.toNat + 1 + 1), C2, ?_, hC⟩
      rw [CWorld.demandFor, Option.bind_eq_some_iff, h.fl, h.dt]
      exact ⟨_, demandWhile_more e1 (le_max_right _ _), demandFor_more (le_max_left _ _) e2⟩
    · cases hr

/-- `adddemand` makes the same vehicles in both engines: if it succeeds in the Python engine it ends in
the C++ engine, and every run of the C++ engine that ends gives the same vehicles. -/
theorem C129_demand (h : SameBuilt P C) (o d : Ref) (t0 t1 flow volume : ℚ) (a e : ℕ)
    (ho : P.getNode o = .ok a) (hd : P.getNode d = .ok e) (h1 : P.addDemand o d t0 t1 flow volume = .ok P') :
    (∃ fuel C', C.addDemand a e t0 t1 (cppFlow P.cfg.fl t0 t1 flow volume) [] fuel = some C') ∧
    ∀ fuel C', C.addDemand a e t0 t1 (cppFlow P.cfg.fl t0 t1 flow volume) [] fuel = some C' →
      SameBuilt P' C' := by
  have key : ∃ f', World.demandLoop o d (cppFlow P.cfg.fl t0 t1 flow volume)
      (World.pyRange (pyInt (P.fl (t0 / P.dt))) (pyInt (P.fl (t1 / P.dt)))) P 0 = .ok (P', f') := by
    unfold World.addDemand at h1
    unfold cppFlow
    by_cases hv : 0 < volume
    · rw [if_pos hv] at h1 ⊢
      by_cases hz : P.fl (t1 - t0) = 0
      · simp [hz, bind, Except.bind, throw, throwThe, MonadExceptOf.throw] at h1
      · rw [if_neg hz] at h1
        simp only [pure_bind] at h1
        rw [bind_ok] at h1
        obtain ⟨⟨Q, f'⟩, h2, h3⟩ := h1
        cases h3
        exact ⟨f', h2⟩
    · rw [if_neg hv] at h1 ⊢
      simp only [pure_bind] at h1
      rw [bind_ok] at h1
      obtain ⟨⟨Q, f'⟩, h2, h3⟩ := h1
      cases h3
      exact ⟨f', h2⟩
  obtain ⟨f', hk⟩ := key
  rw [pyRange_map] at hk
  obtain ⟨fuel0, C0, e0, hC⟩ := demandLoop_same h ho hd hk
  have e1 : ∀ fuel, C.addDemand a e t0 t1 (cppFlow P.cfg.fl t0 t1 flow volume) [] fuel =
      (CWorld.demandFor a e [] (cppFlow P.cfg.fl t0 t1 flow volume) fuel
        (pyInt (P.fl (t1 / P.dt)) - pyInt (P.fl (t0 / P.dt))).toNat (pyInt (P.fl (t0 / P.dt)))
        (C, 0)).map Prod.fst := by
    intro fuel
    unfold CWorld.addDemand
    rw [h.fl, h.dt]; rfl
  refine ⟨⟨fuel0, C0, by rw [e1, e0]; rfl⟩, fun fuel C' hC' => ?_⟩
  rw [e1, Option.map_eq_some_iff] at hC'
  obtain ⟨r, h2, rfl⟩ := hC'
  have h3 := demandFor_more (le_max_left fuel fuel0) h2
  rw [demandFor_more (le_max_right fuel fuel0) e0] at h3
  cases h3
  exact hC

/-- The same calls in both engines give the same scenario. -/
theorem C129_scenario (h : Together P C) : SameBuilt P C := by
  induction h with
  | start cfg tmax rng tMax duoTime duoWeight noise gradual noCyclic adjustCap logMode tt =>
    exact C129_start ..
  | node a rng fuel _ hp h1 h2 ih =>
    obtain ⟨C1, e, hC⟩ := C129_node ih a rng fuel hp h1
    rw [e] at h2; cases h2; exact hC
  | link a rng s e _ hp hs he h1 ih => exact C129_link ih a rng s e hp hs he h1
  | veh a d r o e prefer _ hab hr ho he hd h1 ih => exact C129_vehicle ih a d r o e prefer hab hr ho he hd h1
  | demand o d t0 t1 flow volume a e fuel _ ho hd h1 h2 ih =>
    exact (C129_demand ih o d t0 t1 flow volume a e ho hd h1).2 fuel _ h2

/-- `C` with the placeholders of objects that do not exist set to those of `P`. -/
def filled (P : World) (C : CWorld) : CWorld :=
  { C with
    link := fun l => if l < P.nLinks then C.link l else (mirror P).link l
    veh := fun v => if v < P.nVeh then C.veh v else (mirror P).veh v
    node := fun n => if n < P.nNodes then C.node n else (mirror P).node n }

/-- Worlds built by the same calls are alike, up to placeholders of objects that do not exist: what
C126 to C128 say of alike worlds applies to them. -/
theorem C129_alike (h : SameBuilt P C) : Alike (padded P) (filled (padded P) C) where
  fl := h.fl
  dt := h.dt
  dn := h.dn
  time := h.time
  det := h.det
  link l := by
    by_cases hl : l < P.nLinks
    · rw [show (filled (padded P) C).link l = C.link l from if_pos hl]; exact h.link l hl
    · rw [show (filled (padded P) C).link l = (mirror (padded P)).link l from if_neg hl]; rfl
  veh v := by
    by_cases hv : v < P.nVeh
    · rw [show (filled (padded P) C).veh v = C.veh v from if_pos hv, ← h.veh v hv]
      simp [pVeh, padded, hv]
    · rw [show (filled (padded P) C).veh v = (mirror (padded P)).veh v from if_neg hv]
      simp [pVeh, cVeh, mirror, padded, hv]
  node n := by
    by_cases hn : n < P.nNodes
    · rw [show (filled (padded P) C).node n = C.node n from if_pos hn, ← h.node n hn]
      simp [pNode, padded, hn]; rfl
    · rw [show (filled (padded P) C).node n = (mirror (padded P)).node n from if_neg hn]
      simp [pNode, cNode, mirror, padded, hn]; rfl

end build

/-- A node, a signalled node with a capacity, a link between them, a vehicle and a demand. -/
def smallBuild : M World := do
  let P1 ← (World.new agreeCfg none (fun _ => 0)).addNode 9 { name := "a" }
  let P2 ← P1.addNode 9 { name := "b", signal := [30, 20], signalOffset := 15, flowCap := some (9/10) }
  let P3 ← P2.addLink { startN := .name "a", endN := .name "b", length := 500, lanes := 2
                        jamPerLane := some (1/5), capOut := some (1/2) }
  let P4 ← P3.addVehicle { orig := .name "a", dest := some (.name "b"), dep := .sec 10 }
  P4.addDemand (.name "a") (.name "b") 0 100 (1/2) (-1)

set_option maxRecDepth 10000 in
/-- A case: the scenario of `smallBuild`, built in both engines; the second node starts in its second
phase and counts two lanes. -/
theorem C129_case : ∃ (P : World) (C : CWorld), smallBuild = .ok P ∧ Together P C ∧ SameBuilt P C ∧
    P.nNodes = 2 ∧ P.nLinks = 1 ∧ P.nVeh = 11 ∧ (C.node 1).sigPhase = 1 ∧ (C.node 1).lanes = 2 ∧
    (C.link 0).capOut = 1/2 ∧ (C.veh 0).depTime = 10 := by
  have hok : obs smallBuild (fun W => decide (W.nNodes = 2) && decide (W.nLinks = 1) && decide (W.nVeh = 11) &&
      decide (W.N.phase 1 = 1) && decide (W.N.flowCap 1 = some (9/10)) && decide (W.N.lanes 1 = some 2) &&
      decide (W.L.capOut 0 = 1/2) && decide (W.V.depTime 0 = 2) && decide (W.cfg.deltat = 5) &&
      decide (W.cfg.fl (((2 : ℤ) : ℚ) * 5) = 10)) = true := by
    decide +kernel
  obtain ⟨P, hP, hc⟩ := obs_ok hok
  simp only [Bool.and_eq_true, decide_eq_true_eq] at hc
  obtain ⟨⟨⟨⟨⟨⟨⟨⟨⟨c1, c2⟩, c3⟩, c4⟩, c5⟩, c6⟩, c7⟩, c8⟩, c9⟩, c10⟩ := hc
  have hP0 := hP
  unfold smallBuild at hP
  rw [bind_ok] at hP
  obtain ⟨P1, h1, hP⟩ := hP
  rw [bind_ok] at hP
  obtain ⟨P2, h2, hP⟩ := hP
  rw [bind_ok] at hP
  obtain ⟨P3, h3, hP⟩ := hP
  rw [bind_ok] at hP
  obtain ⟨P4, h4, h5⟩ := hP
  have t0 := Together.start agreeCfg none (fun _ => 0) 0 0 0 0 false false false false 1
  have p1 : PlainNode (World.new agreeCfg none (fun _ => 0)).cfg.fl { name := "a" } := fun c hc => by cases hc
  obtain ⟨C1, k1, -⟩ := C129_node (C129_scenario t0) { name := "a" } (fun _ => 0) 9 p1 h1
  have t1 := Together.node _ _ _ t0 p1 h1 k1
  have f1 : P1.cfg = agreeCfg := by
    obtain ⟨_, _, _, -, -, rfl⟩ := World.addNode_ok h1; rfl
  have p2 : PlainNode P1.cfg.fl
      { name := "b", signal := [30, 20], signalOffset := 15, flowCap := some (9/10) } := by
    rw [f1]
    intro c hc
    cases hc
    exact ⟨by norm_num, rfl, fun k hk => by cases hk⟩
  obtain ⟨C2, k2, -⟩ := C129_node (C129_scenario t1) _ (fun _ => 0) 9 p2 h2
  have t2 := Together.node _ _ _ t1 p2 h2 k2
  have f2 : P2.cfg = agreeCfg := by
    obtain ⟨_, _, _, -, -, rfl⟩ := World.addNode_ok h2; exact f1
  obtain ⟨s, e, _, _, _, hs, he, -, -, -, -, hP3⟩ := World.addLink_ok h3
  have f3 : P3.cfg = agreeCfg := by rw [hP3]; exact f2
  have t3 := Together.link _ (fun _ => 0) s e t2 (by
    rw [f2]
    refine ⟨?_, fun c hc => ?_, fun c hc => by cases hc⟩
    · show (0 : ℚ) < 1 / 5 * 2; norm_num
    · cases hc; norm_num) hs he h3
  obtain ⟨o, d, _, _, _, _, _, _, ho, hd, -, -, -, -, -, -, hP4⟩ := World.addVehicle_ok h4
  obtain ⟨k, hk, -⟩ := hd
  have f4 : P4.cfg = agreeCfg := by rw [hP4]; exact f3
  have c9' : P4.cfg.deltat = 5 := by rw [f4]; show (1 : ℚ) * ((5 : ℕ) : ℚ) = 5; norm_num
  have t4 := Together.veh _ 10 _ o k [] t3 rfl rfl ho hk (by
    rw [f3, ← f4]
    exact ⟨rfl, by rw [f4]; rfl, by rw [c9']; norm_num, 2, by rw [c9']; norm_num⟩) h4
  have hg : ∀ r, P4.getNode r = P3.getNode r := fun r => by rw [hP4]; cases r <;> rfl
  obtain ⟨⟨fuel, C5, k5⟩, -⟩ := C129_demand (C129_scenario t4) (.name "a") (.name "b") 0 100 (1/2) (-1) o k
    ((hg _).trans ho) ((hg _).trans hk) h5
  have t5 := Together.demand _ _ _ _ _ _ _ _ _ t4 ((hg _).trans ho) ((hg _).trans hk) h5 k5
  have hB := C129_scenario t5
  have n1 := hB.node 1 (by rw [c1]; norm_num)
  simp only [pNode, cNode, NodeView.mk.injEq, c5, c6, c4] at n1
  obtain ⟨-, -, -, -, g1, -, g2, -, g3⟩ := n1
  refine ⟨P, _, hP0, t5, hB, c1, c2, c3, g1.symm, ?_, ?_, ?_⟩
  · split at g2
    · rename_i hx
      rw [if_pos hx] at g3
      simp only [reduceCtorEq, if_false, Option.getD_some] at g3
      split at g3
      · exact g3.symm
      · norm_num at g3
    · cases g2
  · have := congrArg LinkView.capOut (hB.link 0 (by rw [c2]; norm_num))
    simp only [pLink, cLink] at this
    rw [← this]; exact c7
  · rw [hB.depart 0 (by rw [c3]; norm_num), c8, c9, c10]

/-- Two nodes. -/
def twoNodes : M World := do
  let P1 ← (World.new agreeCfg none (fun _ => 0)).addNode 9 { name := "a" }
  P1.addNode 9 { name := "b" }

/-- A link given the capacity `-1` has that capacity in the Python engine and a positive one in the
C++ engine; one given the jam density zero is refused by the Python engine and has the density 0.2 in
the C++ engine. The conditions of `PlainLink` are needed. -/
theorem C129_link_false : ∃ (P P' : World) (C : CWorld) (a : World.LinkArgs), Together P C ∧
    a.capOut = some (-1) ∧ P.addLink a = .ok P' ∧ P'.L.capOut 0 = -1 ∧
    0 < ((C.addLink 0 1 (cppLink P.cfg.fl a (fun _ => 0))).link 0).capOut ∧
    P.addLink { a with capOut := none, jamDensity := 0 } = .error .zeroDivision ∧
    ((C.addLink 0 1 (cppLink P.cfg.fl { a with capOut := none, jamDensity := 0 } (fun _ => 0))).link 0).kappa =
      1 / 5 := by
  have hok : obs twoNodes (fun P =>
      obs (P.addLink { startN := .name "a", endN := .name "b", length := 500, capOut := some (-1) })
        (fun P' => decide (P'.L.capOut 0 = -1)) && decide (P.nLinks = 0) &&
      (match P.addLink { startN := .name "a", endN := .name "b", length := 500, jamDensity := 0 } with
        | .error e => decide (e = .zeroDivision)
        | .ok _ => false)) = true := by
    decide +kernel
  obtain ⟨P, hP, hc⟩ := obs_ok hok
  simp only [Bool.and_eq_true, decide_eq_true_eq] at hc
  obtain ⟨⟨c1, c2⟩, c3⟩ := hc
  obtain ⟨P', hP', c4⟩ := obs_ok c1
  simp only [decide_eq_true_eq] at c4
  unfold twoNodes at hP
  rw [bind_ok] at hP
  obtain ⟨P1, h1, h2⟩ := hP
  have t0 := Together.start agreeCfg none (fun _ => 0) 0 0 0 0 false false false false 1
  have p1 : PlainNode (World.new agreeCfg none (fun _ => 0)).cfg.fl { name := "a" } := fun c hc => by cases hc
  obtain ⟨C1, k1, -⟩ := C129_node (C129_scenario t0) { name := "a" } (fun _ => 0) 9 p1 h1
  have t1 := Together.node _ _ _ t0 p1 h1 k1
  have p2 : PlainNode P1.cfg.fl { name := "b" } := fun c hc => by cases hc
  obtain ⟨C2, k2, -⟩ := C129_node (C129_scenario t1) _ (fun _ => 0) 9 p2 h2
  have t2 := Together.node _ _ _ t1 p2 h2 k2
  have f2 : P.cfg = agreeCfg := by
    obtain ⟨_, _, _, -, -, rfl⟩ := World.addNode_ok h2
    obtain ⟨_, _, _, -, -, rfl⟩ := World.addNode_ok h1
    rfl
  have hB := C129_scenario t2
  have hl : ∀ a, (C2.addLink 0 1 a).link 0 = C2.newLink 0 1 a := by
    intro a
    show (if 0 = C2.g.nLinks then _ else _) = _
    rw [if_pos (by rw [hB.links, c2])]
  refine ⟨P, P', C2, { startN := .name "a", endN := .name "b", length := 500, capOut := some (-1) }, t2, rfl,
    hP', c4, ?_, ?_, ?_⟩
  · rw [hl, f2]
    simp only [CWorld.newLink, cppLink, hB.fl, hB.tau, f2, CWorld.capOf, agreeCfg, demoCfg, id]
    rw [show pyInt (1 : ℚ) = 1 from pyInt_intCast 1]
    norm_num
  · split at c3
    · rename_i e he; rw [he, of_decide_eq_true c3]
    · cases c3
  · rw [hl, f2]
    simp [CWorld.newLink, cppLink, hB.fl, f2, agreeCfg, demoCfg]

end UX
