import Verif.Props.AgreeBuild
import Verif.Props.AgreeStep
import Verif.Model.CppWrap

/-!
# Finalizing the same scenario in both engines (C130)
-/

namespace UX
open Agree Cpp

section final
variable {P : World} {C : CWorld}

theorem foldl_max_eq (f : ℕ → ℚ) (g : ℕ → ℚ) : ∀ (ls : List ℕ) (m : ℚ), (∀ l ∈ ls, f l = g l) →
    (ls.map f).foldl max m = ls.foldl (fun m k => max m (g k)) m
  | [], _, _ => rfl
  | l :: ls, m, h => by
    simp only [List.map_cons, List.foldl_cons]
    rw [h l List.mem_cons_self]
    exact foldl_max_eq f g ls _ (fun k hk => h k (List.mem_cons_of_mem _ hk))

theorem maxQ_eq (h : SameBuilt P C) (ls : List ℕ) (hl : ∀ l ∈ ls, l < P.nLinks) :
    World.maxQ (ls.map P.L.capacity) = C.maxCap ls := by
  cases ls with
  | nil => rfl
  | cons a t =>
    simp only [List.map_cons, World.maxQ, CWorld.maxCap]
    rw [foldl_max_eq P.L.capacity (fun k => (C.link k).cap) t _
      (fun l hm => (h.flow l (hl l (List.mem_cons_of_mem _ hm))).2.2.2.1),
      (h.flow a (hl a List.mem_cons_self)).2.2.2.1]

theorem maxQ_pos {f : ℕ → ℚ} {ls : List ℕ} (hne : ls ≠ []) (h : ∀ l ∈ ls, 0 < f l) :
    0 < World.maxQ (ls.map f) := by
  cases ls with
  | nil => exact absurd rfl hne
  | cons a t =>
    simp only [List.map_cons, World.maxQ]
    have : ∀ (xs : List ℚ) (m : ℚ), 0 < m → 0 < xs.foldl max m := by
      intro xs
      induction xs with
      | nil => intro m hm; exact hm
      | cons x xs ih => intro m hm; exact ih _ (lt_max_of_lt_left hm)
    exact this _ _ (h a List.mem_cons_self)

/-- Automatic node capacities are the same in both engines. -/
theorem C130_adjust (h : SameBuilt P C) (hfl : P.cfg.fl = id) (hpos : ∀ l, l < P.nLinks → 0 < P.L.capacity l)
    (n : ℕ) (hn : n < P.nNodes) (hl : P.N.flowCap n = none → P.N.lanes n = none ∧ (C.node n).lanes ≤ 0) :
    SameBuilt (P.adjustNodeCapacity n) (C.adjustNode n) := by
  have hv := h.node n hn
  simp only [pNode, cNode, NodeView.mk.injEq] at hv
  obtain ⟨b1, b2, b3, b4, b5, b6, b7, b8, b9⟩ := hv
  unfold World.adjustNodeCapacity CWorld.adjustNode
  cases hc : P.N.flowCap n with
  | some c =>
    rw [hc] at b7
    split at b7
    · rename_i h0
      have h2 : ¬ ((C.node n).flowCap < 0 ∧ (C.node n).inLinks ≠ [] ∧ (C.node n).outLinks ≠ []) :=
        fun x => absurd x.1 (not_lt.2 h0)
      dsimp only
      rw [if_neg h2]
      exact h
    · cases b7
  | none =>
    rw [hc] at b7
    split at b7
    · cases b7
    rename_i h0
    obtain ⟨l1, l2⟩ := hl hc
    by_cases he : P.N.inlinks n = [] ∨ P.N.outlinks n = []
    · dsimp only
      rw [if_pos he, if_neg]
      · exact h
      · rw [← b1, ← b2]; tauto
    · have he' : (C.node n).flowCap < 0 ∧ (C.node n).inLinks ≠ [] ∧ (C.node n).outLinks ≠ [] := by
        rw [← b1, ← b2]; push Not at he; exact ⟨not_le.1 h0, he⟩
      dsimp only
      rw [if_neg he, if_pos he']
      push Not at he
      have q1 := maxQ_eq h (P.N.inlinks n) (fun l hm => h.real n l (.inl hm))
      have q2 := maxQ_eq h (P.N.outlinks n) (fun l hm => h.real n l (.inr hm))
      have p1 : 0 < World.maxQ ((P.N.inlinks n).map P.L.capacity) :=
        maxQ_pos he.1 (fun l hm => hpos l (h.real n l (.inl hm)))
      have p2 : 0 < World.maxQ ((P.N.outlinks n).map P.L.capacity) :=
        maxQ_pos he.2 (fun l hm => hpos l (h.real n l (.inr hm)))
      rw [← b1, ← b2, ← q1, ← q2, h.fl]
      simp only [World.fl]
      generalize hc' : P.cfg.fl (P.cfg.fl (World.maxQ ((P.N.inlinks n).map P.L.capacity) +
        World.maxQ ((P.N.outlinks n).map P.L.capacity)) / 2) = c
      have hcp : 0 < c := by rw [← hc', hfl]; simp only [id]; positivity
      have hceil : 0 < ⌈c / (4 / 5)⌉ := Int.ceil_pos.mpr (by positivity)
      refine ⟨h.fl, h.tau, h.dt, h.dn, h.time, h.det, h.nodes, h.links, h.vehs, h.link, h.veh, ?_, h.orig,
        h.depart, h.alive, ?_, h.flow, h.times, h.real, h.quiet⟩
      · intro m hm
        by_cases hne : m = n
        · subst hne
          simp only [pNode, cNode, CWorld.setN, upd_same, l1]
          simp only [b1, b2, b3, b4, b5, b6, h.dt, World.dt, hfl, id, World.autoLanes, CWorld.autoLanes,
            NodeView.mk.injEq, true_and, if_pos hcp.le, if_pos l2, if_pos hceil, reduceCtorEq, if_false,
            Option.getD_some]
          rw [b4] at b6
          exact ⟨b6, Int.toNat_of_nonneg hceil.le⟩
        · have := h.node m hm
          simp only [pNode, CWorld.setN, upd_ne _ _ hne, l1] at this ⊢
          exact this
      · intro m hm
        by_cases hne : m = n
        · subst hne
          simp only [CWorld.setN, upd_same]
          exact h.wait m hm
        · simp only [CWorld.setN, upd_ne _ _ hne]
          exact h.wait m hm

/-- What both engines keep when a node capacity is set. -/
structure KeptByAdjust (P P' : World) (C C' : CWorld) : Prop where
  cfg : P'.cfg = P.cfg
  cap : P'.L = P.L
  nl : P'.nLinks = P.nLinks
  nn : P'.nNodes = P.nNodes
  ts : P'.tsize = P.tsize
  link : C'.link = C.link
  g : C'.g = C.g

theorem adjust_kept (P : World) (C : CWorld) (n : ℕ) : KeptByAdjust P (P.adjustNodeCapacity n) C (C.adjustNode n) := by
  unfold World.adjustNodeCapacity CWorld.adjustNode
  constructor <;> (repeat' split) <;> rfl

theorem adjust_other (P : World) (C : CWorld) {n m : ℕ} (h : m ≠ n) :
    (P.adjustNodeCapacity n).N.flowCap m = P.N.flowCap m ∧ (P.adjustNodeCapacity n).N.lanes m = P.N.lanes m ∧
      (C.adjustNode n).node m = C.node m := by
  unfold World.adjustNodeCapacity CWorld.adjustNode
  refine ⟨?_, ?_, ?_⟩
  · split
    · rfl
    · split
      · rfl
      · exact upd_ne _ _ h
  · split
    · rfl
    · split
      · rfl
      · dsimp only
        cases P.N.lanes n
        · exact upd_ne _ _ h
        · rfl
  · split
    · exact upd_ne _ _ h
    · rfl

theorem adjust_all (hfl : P.cfg.fl = id) (hpos : ∀ l, l < P.nLinks → 0 < P.L.capacity l) :
    ∀ (ns : List ℕ) (Q : World) (D : CWorld), SameBuilt Q D → KeptByAdjust P Q C D → ns.Nodup →
      (∀ n ∈ ns, n < Q.nNodes ∧ (Q.N.flowCap n = none → Q.N.lanes n = none ∧ (D.node n).lanes ≤ 0)) →
      SameBuilt (ns.foldl World.adjustNodeCapacity Q) (ns.foldl CWorld.adjustNode D) ∧
        KeptByAdjust P (ns.foldl World.adjustNodeCapacity Q) C (ns.foldl CWorld.adjustNode D)
  | [], _, _, h, k, _, _ => ⟨h, k⟩
  | n :: ns, Q, D, h, k, nd, hn => by
    have k' := adjust_kept Q D n
    obtain ⟨hm, nd'⟩ := List.nodup_cons.1 nd
    obtain ⟨hlt, hl⟩ := hn n List.mem_cons_self
    refine adjust_all hfl hpos ns _ _ (C130_adjust h (by rw [k.cfg, hfl]) (fun l hl => ?_) n hlt hl)
      ⟨k'.cfg.trans k.cfg, k'.cap.trans k.cap, k'.nl.trans k.nl, k'.nn.trans k.nn, k'.ts.trans k.ts,
        k'.link.trans k.link, k'.g.trans k.g⟩ nd' (fun m hmem => ?_)
    · rw [k.cap]; exact hpos l (k.nl ▸ hl)
    · have hne : m ≠ n := fun e => hm (e ▸ hmem)
      obtain ⟨e1, e2, e3⟩ := adjust_other Q D hne
      rw [k'.nn, e1, e2, e3]
      exact hn m (List.mem_cons_of_mem _ hmem)

/-- `finalize_scenario` leaves the same scenario in both engines: the same number of time steps, the
same travel times at the start, and the same node capacities if these are set automatically. -/
theorem C130_finalize (h : SameBuilt P C) (h0 : P.T = 0) (tmax : Option ℚ)
    (hadj : C.g.adjustCap = P.cfg.adjustNodeCap)
    (ha : P.cfg.adjustNodeCap = true → P.cfg.fl = id ∧ (∀ l, l < P.nLinks → 0 < P.L.capacity l) ∧
      ∀ n, n < P.nNodes → P.N.flowCap n = none → P.N.lanes n = none ∧ (C.node n).lanes ≤ 0) :
    SameBuilt (P.finalize tmax) (C.setTMax (P.fixedTmax tmax)).initAdj ∧
    (C.setTMax (P.fixedTmax tmax)).initAdj.g.totalSteps = (P.finalize tmax).tsize ∧
    ∀ l, l < P.nLinks → (P.finalize tmax).L.ttActual l =
      ((C.setTMax (P.fixedTmax tmax)).initAdj.link l).ttReal := by
  have hts : (C.setTMax (P.fixedTmax tmax)).g.totalSteps = (pyInt (P.fl (P.fixedTmax tmax / P.dt))).toNat := by
    show (pyInt (C.g.fl (P.fixedTmax tmax / C.g.deltaT))).toNat = _
    rw [h.fl, h.dt]; rfl
  have hlink : ∀ l, l < P.nLinks → cLink ((C.setTMax (P.fixedTmax tmax)).link l) = cLink (C.link l) ∧
      ((C.setTMax (P.fixedTmax tmax)).link l).kappa = (C.link l).kappa ∧
      ((C.setTMax (P.fixedTmax tmax)).link l).tau = (C.link l).tau ∧
      ((C.setTMax (P.fixedTmax tmax)).link l).bws = (C.link l).bws ∧
      ((C.setTMax (P.fixedTmax tmax)).link l).cap = (C.link l).cap ∧
      ((C.setTMax (P.fixedTmax tmax)).link l).delta = (C.link l).delta ∧
      ((C.setTMax (P.fixedTmax tmax)).link l).ttReal = List.replicate
        (pyInt (P.fl (P.fixedTmax tmax / P.dt))).toNat (P.fl (P.L.length l / P.L.u l)) := by
    intro l hl
    have hl' : l < C.g.nLinks := by rw [h.links]; exact hl
    simp only [CWorld.setTMax, if_pos hl', cLink, true_and]
    obtain ⟨m, hm⟩ := h.times l hl
    have e1 : (C.link l).len = P.L.length l := (congrArg LinkView.len (h.link l hl)).symm
    have e2 : (C.link l).vmax = P.L.u l := (congrArg LinkView.speed (h.link l hl)).symm
    rw [hm, h.fl, h.dt, e1, e2, List.take_replicate, List.length_replicate, ← List.replicate_add]
    show List.replicate _ (P.cfg.fl _) = List.replicate (pyInt (P.cfg.fl (P.fixedTmax tmax / P.cfg.deltat))).toNat (P.cfg.fl _)
    congr 1
    omega
  have key : ∀ W1 : World, W1.cfg = P.cfg → W1.nNodes = P.nNodes → W1.nLinks = P.nLinks → W1.nVeh = P.nVeh →
      W1.T = 0 → W1.N = P.N → W1.V = P.V → W1.living = P.living →
      (∃ f, W1.L = { P.L with ttActual := f }) → SameBuilt W1 (C.setTMax (P.fixedTmax tmax)) := by
    intro W1 r1 r2 r3 r4 r5 r6 r7 r8 ⟨f, r9⟩
    refine ⟨?_, ?_, ?_, ?_, ?_, ?_, ?_, ?_, ?_, ?_, ?_, ?_, ?_, ?_, ?_, ?_, ?_, ?_, ?_, ?_⟩
    · rw [r1]; exact h.fl
    · rw [r1]; exact h.tau
    · rw [r1]; exact h.dt
    · rw [r1]; exact h.dn
    · rw [r5, ← h0]; exact h.time
    · rw [r1]; exact h.det
    · rw [r2]; exact h.nodes
    · rw [r3]; exact h.links
    · rw [r4]; exact h.vehs
    · intro l hl
      rw [r3] at hl
      rw [(hlink l hl).1, ← h.link l hl]
      simp only [pLink, r9]
    · intro v hv
      rw [r4] at hv
      have := h.veh v hv
      simp only [pVeh, r7] at this ⊢
      exact this
    · intro n hn
      rw [r2] at hn
      have := h.node n hn
      simp only [pNode, r6] at this ⊢
      exact this
    · intro v hv; rw [r7]; exact h.orig v (r4 ▸ hv)
    · intro v hv; rw [r7, r1]; exact h.depart v (r4 ▸ hv)
    · intro v hv; rw [r8]; exact h.alive v (r4 ▸ hv)
    · intro n hn; rw [r6]; exact h.wait n (r2 ▸ hn)
    · intro l hl
      rw [r3] at hl
      obtain ⟨-, g1, g2, g3, g4, g5, -⟩ := hlink l hl
      rw [g1, g2, g3, g4, g5, r9]
      exact h.flow l hl
    · intro l hl
      rw [r3] at hl
      refine ⟨(pyInt (P.fl (P.fixedTmax tmax / P.dt))).toNat, ?_⟩
      rw [(hlink l hl).2.2.2.2.2.2, r9, r1]; rfl
    · intro n l hl; rw [r6] at hl; rw [r3]; exact h.real n l hl
    · rw [r2, r3, r6]
      refine ⟨h.quiet.1, fun l hl => ?_⟩
      have hl' : l < C.g.nLinks := by rw [h.links]; exact hl
      simp only [CWorld.setTMax, if_pos hl']
      exact h.quiet.2 l hl
  unfold World.finalize
  extract_lets tm ts L1 W1
  have hW1 : SameBuilt W1 (C.setTMax (P.fixedTmax tmax)) :=
    key W1 rfl rfl rfl rfl rfl rfl rfl rfl ⟨_, rfl⟩
  have hadj' : (C.setTMax (P.fixedTmax tmax)).g.adjustCap = P.cfg.adjustNodeCap := hadj
  have fin : ∀ (Q : World) (D : CWorld), SameBuilt Q D → KeptByAdjust W1 Q (C.setTMax (P.fixedTmax tmax)) D →
      SameBuilt Q { D with g := { D.g with pref := fun _ _ => 0, active := fun _ => false } } ∧
      D.g.totalSteps = Q.tsize ∧ ∀ l, l < P.nLinks → Q.L.ttActual l = (D.link l).ttReal := by
    intro Q D hQ hK
    refine ⟨⟨hQ.fl, hQ.tau, hQ.dt, hQ.dn, hQ.time, hQ.det, hQ.nodes, hQ.links, hQ.vehs, hQ.link, hQ.veh, hQ.node,
      hQ.orig, hQ.depart, hQ.alive, hQ.wait, hQ.flow, hQ.times, hQ.real, hQ.quiet⟩, ?_, ?_⟩
    · rw [hK.g, hK.ts, hts]
    · intro l hl
      rw [hK.cap, hK.link, (hlink l hl).2.2.2.2.2.2]
      exact if_pos hl
  have hn : (C.setTMax (P.fixedTmax tmax)).g.nNodes = P.nNodes := h.nodes
  by_cases hb : P.cfg.adjustNodeCap = true
  · obtain ⟨a1, a2, a3⟩ := ha hb
    obtain ⟨s1, s2⟩ := adjust_all (P := W1) (C := C.setTMax (P.fixedTmax tmax)) a1 a2 (List.range P.nNodes) W1
      (C.setTMax (P.fixedTmax tmax)) hW1 ⟨rfl, rfl, rfl, rfl, rfl, rfl, rfl⟩ List.nodup_range
      (fun n hm => ⟨List.mem_range.1 hm, a3 n (List.mem_range.1 hm)⟩)
    have e := fin _ _ s1 s2
    simp only [CWorld.initAdj, hadj', hb, if_true, hn]
    exact e
  · have e := fin _ _ hW1 ⟨rfl, rfl, rfl, rfl, rfl, rfl, rfl⟩
    have e2 : (C.setTMax (P.fixedTmax tmax)).initAdj = { C.setTMax (P.fixedTmax tmax) with
        g := { (C.setTMax (P.fixedTmax tmax)).g with pref := fun _ _ => 0, active := fun _ => false } } := by
      unfold CWorld.initAdj
      rw [if_neg (by rw [hadj']; exact hb)]
    rw [if_neg hb, e2]
    exact e

theorem foldl_snd {α : Type} (g : ℚ → ℕ → ℚ) : ∀ (xs : List (α × ℕ)) (m : ℚ),
    xs.foldl (fun m p => g m p.2) m = (xs.map Prod.snd).foldl g m
  | [], _ => rfl
  | _ :: xs, _ => foldl_snd g xs _

/-- The automatic simulation length is the same in both modes. -/
theorem C130_auto (W : Wrap) (h : SameBuilt P W.c) (hfl : P.cfg.fl = id) (hdt : P.cfg.deltat ≠ 0)
    (hv : W.vehs.map Prod.snd = List.range W.c.g.nVehs) (ht : P.tmax = none) :
    W.autoTmax = P.fixedTmax none := by
  unfold Wrap.autoTmax World.fixedTmax
  rw [ht, h.fl, hfl]
  simp only [id, World.fl, hfl]
  rw [foldl_snd (fun m v => max m ((pyInt ((W.c.veh v).depTime / W.c.g.deltaT) : ℤ) * W.c.g.deltaT)) W.vehs 0,
    hv, h.vehs]
  have : ∀ (vs : List ℕ) (m : ℚ), (∀ v ∈ vs, v < P.nVeh) →
      vs.foldl (fun m v => max m ((pyInt ((W.c.veh v).depTime / W.c.g.deltaT) : ℤ) * W.c.g.deltaT)) m =
      vs.foldl (fun m v => if m < P.fl (P.V.depTime v * P.dt) then P.fl (P.V.depTime v * P.dt) else m) m := by
    intro vs
    induction vs with
    | nil => intro m _; rfl
    | cons v vs ih =>
      intro m hm
      simp only [List.foldl_cons]
      rw [ih _ (fun w hw => hm w (List.mem_cons_of_mem _ hw))]
      congr 1
      rw [h.depart v (hm v List.mem_cons_self), h.dt, hfl]
      simp only [id, World.fl, hfl, World.dt]
      rw [mul_div_assoc, div_self hdt, mul_one, pyInt_intCast]
      split_ifs with hlt
      · exact max_eq_right hlt.le
      · exact max_eq_left (not_lt.1 hlt)
  rw [this _ _ (fun v hv => List.mem_range.1 hv)]
  rfl

/-- `finalize_scenario` of both modes, with a given or an automatic simulation length, leaves the same
scenario. -/
theorem C130_modes (W : Wrap) (h : SameBuilt P W.c) (h0 : P.T = 0) (tmax : Option ℚ) (ht : W.tmax = P.tmax)
    (hadj : W.c.g.adjustCap = P.cfg.adjustNodeCap)
    (ha : P.cfg.adjustNodeCap = true → P.cfg.fl = id ∧ (∀ l, l < P.nLinks → 0 < P.L.capacity l) ∧
      ∀ n, n < P.nNodes → P.N.flowCap n = none → P.N.lanes n = none ∧ (W.c.node n).lanes ≤ 0)
    (hauto : P.tmax = none → tmax = none → P.cfg.fl = id ∧ P.cfg.deltat ≠ 0 ∧
      W.vehs.map Prod.snd = List.range W.c.g.nVehs) :
    SameBuilt (P.finalize tmax) (W.finalize tmax).c ∧ (W.finalize tmax).tmax = some (P.fixedTmax tmax) ∧
    (W.finalize tmax).c.g.totalSteps = (P.finalize tmax).tsize := by
  obtain ⟨k1, k2, -⟩ := C130_finalize h h0 tmax hadj ha
  cases hw : W.tmax with
  | some t =>
    have e : P.fixedTmax tmax = t := by simp [World.fixedTmax, ← ht, hw]
    rw [e] at k1 k2 ⊢
    unfold Wrap.finalize
    rw [hw]
    exact ⟨k1, rfl, k2⟩
  | none =>
    cases tmax with
    | some t =>
      have e : P.fixedTmax (some t) = t := by simp [World.fixedTmax, ← ht, hw]
      rw [e] at k1 k2 ⊢
      unfold Wrap.finalize
      rw [hw]
      exact ⟨k1, rfl, k2⟩
    | none =>
      obtain ⟨a, b, c⟩ := hauto (ht ▸ hw) rfl
      have e := C130_auto W h a b c (ht ▸ hw)
      rw [← e] at k1 k2 ⊢
      unfold Wrap.finalize
      rw [hw]
      exact ⟨k1, rfl, k2⟩

/-- Two engines that hold the same scenario are ready for the agreement of the time steps. -/
theorem C130_ready (h : SameBuilt P C) (hc : Core P) (hk : Fit P) (hd : P.cfg.hardDet = true)
    (hx : ∀ k : ℕ, P.cfg.fl (P.dn * k) = P.dn * k)
    (hcap : ∀ l, l < P.nLinks → P.L.capOut l < 10000000000 ∧ P.L.capIn l < 10000000000) :
    StepReady (padded P) (filled (padded P) C) := by
  refine ⟨C129_alike h, padded_core hc, ⟨hk.ok, hk.left, hk.links⟩, hd, hx, hcap, fun n hn => ?_, h.nodes, h.links⟩
  have hn' : n < P.nNodes := hn
  have e1 : (padded P).N.incoming n = [] := (h.quiet.1 n hn').1
  refine ⟨?_, fun v hv => by rw [e1] at hv; cases hv⟩
  have e2 : (filled (padded P) C).node n = C.node n := if_pos hn'
  have e3 : (C.node n).inLinks = P.N.inlinks n := (congrArg NodeView.inLinks (h.node n hn')).symm
  rw [e1]
  simp only [CWorld.collect, CWorld.setN, upd_same, e2, e3]
  rw [← h.wait n hn', (h.quiet.1 n hn').1]
  have e4 : (P.N.inlinks n).flatMap (fun a => ((filled (padded P) C).link a).arrived) = [] := by
    rw [List.flatMap_eq_nil_iff]
    intro l hl
    have hl' := h.real n l (.inl hl)
    rw [show (filled (padded P) C).link l = C.link l from if_pos hl']
    exact h.quiet.2 l hl'
  rw [e4]
  rfl

/-- After the same preparation the first four stages of the first time step agree in both engines. -/
theorem C130_first (h : SameBuilt P C) (hc : Core P) (hk : Fit P) (hd : P.cfg.hardDet = true)
    (hfl : P.cfg.fl = id) (hdt : 0 ≤ P.cfg.deltat)
    (hcap : ∀ l, l < P.nLinks → P.L.capOut l < 10000000000 ∧ P.L.capIn l < 10000000000) (P4 : World)
    (hp : pFour (padded P) = .ok P4) : Alike P4 (cFour (filled (padded P) C)) := by
  refine C127_step (C130_ready h hc hk hd (fun k => by rw [hfl]; rfl) hcap) hfl hdt (fun n hn v hv => ?_) P4 hp
  have : (padded P).N.genq n = [] := (h.quiet.1 n hn).2
  rw [this] at hv
  cases hv

end final

/-! ### A through road `a → b → c`, with automatic node capacities -/

def thruCfg : Config := { agreeCfg with adjustNodeCap := true }

def thruNode (s : String) (k : Option ℕ) : World.NodeArgs := { name := s, lanes := k }

def thruLink (s e : ℕ) : World.LinkArgs := { startN := .obj s, endN := .obj e, length := 500, lanes := 2 }

/-- The road in the Python engine; `k` is the number of lanes given to the middle node. -/
def thru (k : Option ℕ) : M World := do
  let P1 ← (World.new thruCfg none (fun _ => 0)).addNode 9 (thruNode "a" none)
  let P2 ← P1.addNode 9 (thruNode "b" k)
  let P3 ← P2.addNode 9 (thruNode "c" none)
  let P4 ← P3.addLink (thruLink 0 1)
  let P5 ← P4.addLink (thruLink 1 2)
  P5.addVehicle { orig := .obj 0, dest := some (.obj 2), dep := .step 400 }

def thruCppNode (C : CWorld) (a : World.NodeArgs) : Option CWorld :=
  C.addNode a.signal (cppOffset id a) (cppCap a) (cppLanes a) (fun _ => 0) 9

/-- The road in the C++ engine. -/
def thruCpp (k : Option ℕ) : Option CWorld := do
  let C1 ← thruCppNode (CWorld.empty id 0 5 1 0 0 0 true false false true false 1) (thruNode "a" none)
  let C2 ← thruCppNode C1 (thruNode "b" k)
  let C3 ← thruCppNode C2 (thruNode "c" none)
  let C4 := C3.addLink 0 1 (cppLink id (thruLink 0 1) (fun _ => 0))
  let C5 := C4.addLink 1 2 (cppLink id (thruLink 1 2) (fun _ => 0))
  some (C5.addVehicle 2000 0 2 [])

theorem getNode_obj {P : World} {i j : ℕ} (h : P.getNode (.obj i) = .ok j) : j = i := by
  unfold World.getNode at h
  simp only at h
  split at h
  · cases h; rfl
  · cases h

theorem thru_together {k : Option ℕ} {P : World} (hP : thru k = .ok P) :
    ∃ C, thruCpp k = some C ∧ Together P C ∧ P.cfg = thruCfg := by
  unfold thru at hP
  rw [bind_ok] at hP
  obtain ⟨P1, h1, hP⟩ := hP
  rw [bind_ok] at hP
  obtain ⟨P2, h2, hP⟩ := hP
  rw [bind_ok] at hP
  obtain ⟨P3, h3, hP⟩ := hP
  rw [bind_ok] at hP
  obtain ⟨P4, h4, hP⟩ := hP
  rw [bind_ok] at hP
  obtain ⟨P5, h5, h6⟩ := hP
  have t0 := Together.start thruCfg none (fun _ => 0) 0 0 0 0 false false true false 1
  have pn : ∀ (fl : ℚ → ℚ) (s : String) (k : Option ℕ), PlainNode fl (thruNode s k) :=
    fun _ _ _ c hc => by cases hc
  have pl : ∀ s e, PlainLink id (thruLink s e) := by
    intro s e
    refine ⟨?_, (fun c hc => nomatch hc), (fun c hc => nomatch hc)⟩
    show (0 : ℚ) < 1 / 5
    norm_num
  obtain ⟨C1, k1, -⟩ := C129_node (C129_scenario t0) (thruNode "a" none) (fun _ => 0) 9 (pn _ _ _) h1
  have t1 := Together.node _ _ _ t0 (pn _ _ _) h1 k1
  have f1 : P1.cfg = thruCfg := by
    obtain ⟨_, _, _, -, -, rfl⟩ := World.addNode_ok h1; rfl
  obtain ⟨C2, k2, -⟩ := C129_node (C129_scenario t1) (thruNode "b" k) (fun _ => 0) 9 (pn _ _ _) h2
  have t2 := Together.node _ _ _ t1 (pn _ _ _) h2 k2
  have f2 : P2.cfg = thruCfg := by
    obtain ⟨_, _, _, -, -, rfl⟩ := World.addNode_ok h2; exact f1
  obtain ⟨C3, k3, -⟩ := C129_node (C129_scenario t2) (thruNode "c" none) (fun _ => 0) 9 (pn _ _ _) h3
  have t3 := Together.node _ _ _ t2 (pn _ _ _) h3 k3
  have f3 : P3.cfg = thruCfg := by
    obtain ⟨_, _, _, -, -, rfl⟩ := World.addNode_ok h3; exact f2
  obtain ⟨s, e, _, _, _, hs, he, -, -, -, -, hP4⟩ := World.addLink_ok h4
  have f4 : P4.cfg = thruCfg := by rw [hP4]; exact f3
  cases getNode_obj hs
  cases getNode_obj he
  have t4 := Together.link _ (fun _ => 0) 0 1 t3 (by rw [f3]; exact pl 0 1) hs he h4
  obtain ⟨s, e, _, _, _, hs, he, -, -, -, -, hP5⟩ := World.addLink_ok h5
  have f5 : P5.cfg = thruCfg := by rw [hP5]; exact f4
  cases getNode_obj hs
  cases getNode_obj he
  have t5 := Together.link _ (fun _ => 0) 1 2 t4 (by rw [f4]; exact pl 1 2) hs he h5
  obtain ⟨o, d, _, _, _, _, _, _, ho, hd, -, -, -, -, -, -, hP6⟩ := World.addVehicle_ok h6
  obtain ⟨m, hm, -⟩ := hd
  cases getNode_obj ho
  cases getNode_obj hm
  have t6 := Together.veh _ 2000 _ 0 2 [] t5 rfl rfl ho hm (by
    rw [f5]
    show (2000 : ℚ) = ((400 : ℤ) : ℚ) * ((1 : ℚ) * ((5 : ℕ) : ℚ))
    norm_num) h6
  rw [f3, f4] at t6
  rw [f1] at k2
  rw [f2] at k3
  refine ⟨_, ?_, t6, by rw [hP6]; exact f5⟩
  have e1 : thruCppNode (CWorld.empty id 0 5 1 0 0 0 true false false true false 1) (thruNode "a" none) = some C1 :=
    k1
  have e2 : thruCppNode C1 (thruNode "b" k) = some C2 := k2
  have e3 : thruCppNode C2 (thruNode "c" none) = some C3 := k3
  unfold thruCpp
  rw [e1]
  simp only [Option.bind_eq_bind, Option.bind_some]
  rw [e2]
  simp only [Option.bind_some]
  rw [e3]
  rfl

/-- The wrapper around the road. -/
def thruWrap (C : CWorld) : Wrap :=
  { c := C, names := ["0"], ids := [0], vehs := [("0", 0)], living := [("0", 0)], running := []
    cache := fun _ => none, tmax := none, T := 0, tsize := 0, finalized := false }

set_option maxRecDepth 10000 in
/-- A case: the road without given lanes; both modes choose the length 5400 s, 1080 steps, and the same
capacity and lanes of the middle node. -/
theorem C130_case : ∃ (P : World) (C : CWorld), thru none = .ok P ∧ Together P C ∧
    SameBuilt (P.finalize none) ((thruWrap C).finalize none).c ∧ (P.finalize none).tmax = some 5400 ∧
    (P.finalize none).tsize = 1080 ∧ (P.finalize none).N.flowCap 1 = some (4/3) ∧
    (P.finalize none).N.lanes 1 = some 2 := by
  have hok : obs (thru none) (fun P => decide ((P.finalize none).tmax = some 5400) &&
      decide ((P.finalize none).tsize = 1080) && decide ((P.finalize none).N.flowCap 1 = some (4/3)) &&
      decide ((P.finalize none).N.lanes 1 = some 2) && decide (P.T = 0) && decide (P.tmax = none) &&
      decide (P.nLinks = 2) && decide (P.nNodes = 3) && decide (0 < P.L.capacity 0) &&
      decide (0 < P.L.capacity 1) && decide (P.N.lanes 0 = none) && decide (P.N.lanes 1 = none) &&
      decide (P.N.lanes 2 = none) && decide (P.nVeh = 1)) = true := by
    decide +kernel
  obtain ⟨P, hP, hc⟩ := obs_ok hok
  simp only [Bool.and_eq_true, decide_eq_true_eq] at hc
  obtain ⟨⟨⟨⟨⟨⟨⟨⟨⟨⟨⟨⟨⟨c1, c2⟩, c3⟩, c4⟩, c5⟩, c6⟩, c7⟩, c8⟩, c9⟩, c10⟩, c11⟩, c12⟩, c13⟩, c14⟩ := hc
  obtain ⟨C, hC, hT, hcfg⟩ := thru_together hP
  have hB := C129_scenario hT
  have hcc : (thruCpp none).any (fun C => C.g.adjustCap && decide ((C.node 0).lanes ≤ 0) &&
      decide ((C.node 1).lanes ≤ 0) && decide ((C.node 2).lanes ≤ 0)) = true := by
    decide +kernel
  rw [hC] at hcc
  simp only [Option.any_some, Bool.and_eq_true, decide_eq_true_eq] at hcc
  obtain ⟨⟨⟨d1, d2⟩, d3⟩, d4⟩ := hcc
  refine ⟨P, C, hP, hT, ?_, c1, c2, c3, c4⟩
  refine (C130_modes (thruWrap C) hB c5 none c6.symm (by rw [hcfg]; exact d1) (fun _ => ?_) (fun _ _ => ?_)).1
  · refine ⟨by rw [hcfg]; rfl, fun l hl => ?_, fun n hn _ => ?_⟩
    · rw [c7] at hl
      interval_cases l
      · exact c9
      · exact c10
    · rw [c8] at hn
      interval_cases n
      · exact ⟨c11, d2⟩
      · exact ⟨c12, d3⟩
      · exact ⟨c13, d4⟩
  · refine ⟨by rw [hcfg]; rfl, ?_, ?_⟩
    · rw [hcfg]; show (1 : ℚ) * ((5 : ℕ) : ℚ) ≠ 0; norm_num
    · show [0] = List.range C.g.nVehs
      rw [hB.vehs, c14]; rfl

set_option maxRecDepth 10000 in
/-- A node given a number of lanes but no capacity forgets the lanes in the Python engine and keeps them in
the C++ engine, so that the engines differ once capacities are automatic: here 2 lanes against 7. -/
theorem C130_lanes_false : ∃ (P : World) (C : CWorld), Together P C ∧
    C.g.adjustCap = P.cfg.adjustNodeCap ∧ (P.finalize none).N.lanes 1 = some 2 ∧
    ((C.setTMax (P.fixedTmax none)).initAdj.node 1).lanes = 7 ∧
    ¬ SameBuilt (P.finalize none) (C.setTMax (P.fixedTmax none)).initAdj := by
  have hok : obs (thru (some 7)) (fun P => decide ((P.finalize none).N.lanes 1 = some 2) &&
      decide (P.fixedTmax none = 5400) && decide ((P.finalize none).N.flowCap 1 = some (4/3)) &&
      decide ((P.finalize none).nNodes = 3)) = true := by
    decide +kernel
  obtain ⟨P, hP, hc⟩ := obs_ok hok
  simp only [Bool.and_eq_true, decide_eq_true_eq] at hc
  obtain ⟨⟨⟨c1, c2⟩, c3⟩, c4⟩ := hc
  obtain ⟨C, hC, hT, hcfg⟩ := thru_together hP
  have hcc : (thruCpp (some 7)).any (fun C => C.g.adjustCap &&
      decide (((C.setTMax 5400).initAdj.node 1).lanes = 7)) = true := by
    decide +kernel
  rw [hC] at hcc
  simp only [Option.any_some, Bool.and_eq_true, decide_eq_true_eq] at hcc
  obtain ⟨d1, d2⟩ := hcc
  rw [← c2] at d2
  refine ⟨P, C, hT, by rw [hcfg]; exact d1, c1, d2, fun hB => ?_⟩
  have n1 := hB.node 1 (by rw [c4]; norm_num)
  simp only [pNode, cNode, NodeView.mk.injEq, c1, c3, d2] at n1
  obtain ⟨-, -, -, -, -, -, g2, -, g3⟩ := n1
  split at g2
  · rename_i hx
    rw [if_pos hx] at g3
    simp at g3
  · cases g2

theorem finalize_keeps_cfg (P : World) (tmax : Option ℚ) : (P.finalize tmax).cfg = P.cfg := by
  have key : ∀ (ns : List ℕ) (A : World), (ns.foldl World.adjustNodeCapacity A).cfg = A.cfg := by
    intro ns
    induction ns with
    | nil => intro A; rfl
    | cons n ns ih =>
      intro A
      rw [List.foldl_cons, ih]
      unfold World.adjustNodeCapacity
      split
      · rfl
      · split_ifs <;> rfl
  unfold World.finalize
  extract_lets
  split_ifs
  · rw [key]
  · rfl

theorem thru_reach {k : Option ℕ} {P : World} (hP : thru k = .ok P) :
    Reachable Any P ∧ P.finalized = false := by
  unfold thru at hP
  rw [bind_ok] at hP
  obtain ⟨P1, h1, hP⟩ := hP
  rw [bind_ok] at hP
  obtain ⟨P2, h2, hP⟩ := hP
  rw [bind_ok] at hP
  obtain ⟨P3, h3, hP⟩ := hP
  rw [bind_ok] at hP
  obtain ⟨P4, h4, hP⟩ := hP
  rw [bind_ok] at hP
  obtain ⟨P5, h5, h6⟩ := hP
  have f1 : P1.finalized = false := by
    obtain ⟨_, _, _, -, -, rfl⟩ := World.addNode_ok h1; rfl
  have f2 : P2.finalized = false := by
    obtain ⟨_, _, _, -, -, rfl⟩ := World.addNode_ok h2; exact f1
  have f3 : P3.finalized = false := by
    obtain ⟨_, _, _, -, -, rfl⟩ := World.addNode_ok h3; exact f2
  have f4 : P4.finalized = false := by
    obtain ⟨_, _, _, _, _, -, -, -, -, -, -, hP4⟩ := World.addLink_ok h4
    rw [hP4]; exact f3
  have f5 : P5.finalized = false := by
    obtain ⟨_, _, _, _, _, -, -, -, -, -, -, hP5⟩ := World.addLink_ok h5
    rw [hP5]; exact f4
  have f6 : P.finalized = false := by
    obtain ⟨_, _, _, _, _, _, _, _, -, -, -, -, -, -, -, -, hP6⟩ := World.addVehicle_ok h6
    rw [hP6]; exact f5
  refine ⟨?_, f6⟩
  have r0 : Reachable Any (World.new thruCfg none (fun _ => 0)) := .new trivial
  exact (((((r0.next (.addNode rfl h1) trivial).next (.addNode f1 h2) trivial).next (.addNode f2 h3)
    trivial).next (.addLink f3 h4) trivial).next (.addLink f4 h5) trivial).next (.addVehicle h6) trivial

set_option maxRecDepth 10000 in
/-- A case: the first time step on the road; the automatic capacity of the middle node is added to its
first allowance, in both engines. -/
theorem C130_first_case : ∃ (P Q : World) (C : CWorld), thru none = .ok P ∧ SameBuilt (P.finalize none) C ∧
    pFour (padded (P.finalize none)) = .ok Q ∧ Alike Q (cFour (filled (padded (P.finalize none)) C)) ∧
    (P.finalize none).N.flowCapRem 1 = 20/3 ∧ Q.N.flowCapRem 1 = 40/3 := by
  obtain ⟨P, C, hP, -, hB, -⟩ := C130_case
  obtain ⟨hr, hnf⟩ := thru_reach hP
  obtain ⟨-, -, -, hcfg0⟩ := thru_together hP
  have hok : obs (thru none) (fun P => decide ((P.finalize none).finalized = true) &&
      decide (∀ v < (P.finalize none).nVeh, 0 ≤ (P.finalize none).V.moveRemain v) &&
      decide (∀ l < (P.finalize none).nLinks, 0 ≤ (P.finalize none).L.u l ∧ 0 ≤ (P.finalize none).L.length l ∧
        0 ≤ (P.finalize none).L.mergePriority l) &&
      decide (∀ l < (P.finalize none).nLinks, (P.finalize none).L.capOut l < 10000000000 ∧
        (P.finalize none).L.capIn l < 10000000000) &&
      decide ((P.finalize none).N.flowCapRem 1 = 20/3) &&
      obs (pFour (padded (P.finalize none))) (fun Q => decide (Q.N.flowCapRem 1 = 40/3))) = true := by
    decide +kernel
  obtain ⟨P', hP', hc⟩ := obs_ok hok
  rw [hP] at hP'
  cases hP'
  simp only [Bool.and_eq_true, decide_eq_true_eq] at hc
  obtain ⟨⟨⟨⟨⟨c1, c2⟩, c3⟩, c4⟩, c5⟩, c6⟩ := hc
  obtain ⟨Q, hQ, c7⟩ := obs_ok c6
  simp only [decide_eq_true_eq] at c7
  have hr2 : Reachable Any (P.finalize none) := hr.next (.finalize hnf) trivial
  have hcfg : (P.finalize none).cfg = thruCfg := by
    rw [← hcfg0]
    exact finalize_keeps_cfg P none
  have hfl : (P.finalize none).cfg.fl = id := by rw [hcfg]; rfl
  refine ⟨P, Q, _, hP, hB, hQ, C130_first hB (hr2.inv.core c1) ⟨?_, c2, c3⟩ ?_ hfl ?_ c4 Q hQ, c5, c7⟩
  · rw [hfl]; exact ⟨fun _ _ h => h, rfl, fun _ => rfl⟩
  · rw [hcfg]; rfl
  · rw [hcfg]; show (0 : ℚ) ≤ 1 * ((5 : ℕ) : ℚ); norm_num

end UX
