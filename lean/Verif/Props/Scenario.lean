import Verif.Proofs.Scenario3
import Verif.Props.Demo

/-!
# Saving and loading scenarios (C41)
-/

namespace UX
open World Relation

/-- C41, network: nodes and links of a saved scenario, loaded into a fresh world with the same
parameters, are the same in every attribute and in the same order, except for the inflow capacity left
for the first step (see `C41_simulation_false`). Here nodes and links may have been added in any order. -/
theorem C41_network {cfg tmax rng} {ns : List NetCmd} {S : Scn}
    (hn : ns.foldlM NetCmd.run (Scn.new cfg tmax rng) = .ok S) : ∃ f0, ∀ fuel ≥ f0, ∀ r, ∃ S',
      S.save.nodes.length = S.W.nNodes ∧ S.save.links.length = S.W.nLinks ∧
      (Scn.new cfg tmax r).load fuel S.save = .ok S' ∧
      S'.W = { S.W with rng := r, L := { S.W.L with capInRem := S'.W.L.capInRem } } ∧
      (∀ l < S.W.nLinks, S'.W.L.capInRem l = S.W.fl (S.W.L.capIn l * S.W.dt)) ∧
      S'.jam = S.jam ∧ S'.jamPerLane = S.jamPerLane ∧ S'.info = S.info := by
  obtain ⟨hR, -, -⟩ := net_rng hn
  obtain ⟨f0, hl⟩ := hR.load
  refine ⟨f0, fun fuel hf r => ?_⟩
  obtain ⟨A, h1, h2, -, -⟩ := hl fuel hf r
  refine ⟨S.norm r, by simp [Scn.save], by simp [Scn.save], ?_, rfl, ?_, rfl, rfl, rfl⟩
  · unfold Scn.load
    rw [bind_ok]
    refine ⟨A, h1, bind_ok.2 ⟨_, h2, ?_⟩⟩
    simp [Scn.save, hR.info]
  · intro l hl
    simp [Scn.norm, World.norm, hl]

/-- C41, nodes, links and demand, as far as it holds: a network followed by demand calls of which
those to each demand function are consecutive. Loading into a fresh world with the same parameters and
seed gives the same nodes, links and vehicles, and the file that would be saved then is the same again.
Missing: vehicles added by `addVehicle` (`C41_vehicles_false`), mixed calls (`C41_order_false`), signals
overridden after creation (`C41_signal_false`), and the inflow capacity left for the first step
(`C41_simulation_false`). -/
theorem C41_load_partial {cfg tmax rng} {ns : List NetCmd} {ds : List DemandCall} {S0 S : Scn} {bs}
    (hn : ns.foldlM NetCmd.run (Scn.new cfg tmax rng) = .ok S0) (hd : ds.foldlM Scn.demand S0 = .ok S)
    (hb : Blocks ds bs) : ∃ f0, ∀ fuel ≥ f0, ∃ S', (Scn.new cfg tmax rng).load fuel S.save = .ok S' ∧
      S'.W = { S.W with L := { S.W.L with capInRem := S'.W.L.capInRem } } ∧
      (∀ l < S.W.nLinks, S'.W.L.capInRem l = S.W.fl (S.W.L.capIn l * S.W.dt)) ∧
      (∀ l, S.W.nLinks ≤ l → S'.W.L.capInRem l = S.W.L.capInRem l) ∧
      S'.jam = S.jam ∧ S'.jamPerLane = S.jamPerLane ∧ S'.save = S.save := by
  obtain ⟨hR, hrng, hz⟩ := net_rng hn
  obtain ⟨k1, k2, k3, k4, k5, k6⟩ := demands_run hd hR.reach
  have hinfo : S.info = bs := by
    rw [k5, hR.info, hb.1]
    exact record_blocks bs [] hb.2.1 hb.2.2
  obtain ⟨f0, hl⟩ := hR.load
  refine ⟨f0, fun fuel hf => ?_⟩
  obtain ⟨A, h1, h2, -, -⟩ := hl fuel hf rng
  have hsr : SameRef S0.W (Scn.saveRef S.W) := saveRef_same hR.reach.inv.n k2.N
  have hW : (S0.norm rng).W = S0.W.setIn (fun l => if l < S0.W.nLinks then S0.W.fl (S0.W.L.capIn l * S0.W.dt) else 0) := by
    simp only [Scn.norm, World.norm, World.setIn, ← hrng]
  obtain ⟨S2, e1, e2, e3, e4, e5⟩ := k6 _ (Scn.saveRef S.W) (S0.norm rng) hsr hW
  have en : S.save.nodes = S0.save.nodes := by
    have : S.saveNode = S0.saveNode := by funext i; simp only [Scn.saveNode, k2.N]
    simp only [Scn.save, k2.nodes, this]
  have el : S.save.links = S0.save.links := by
    have : S.saveLink = S0.saveLink := by
      funext i; simp only [Scn.saveLink, k2.N, k2.L, k3, k4]
    simp only [Scn.save, k2.links, this]
  have hfl : S.W.fl = S0.W.fl := by unfold World.fl; rw [k2.cfg]
  have hdt : S.W.dt = S0.W.dt := by unfold World.dt; rw [k2.cfg]
  refine ⟨S2, ?_, ?_, ?_, ?_, e3.trans k3.symm, e4.trans k4.symm, ?_⟩
  · unfold Scn.load
    rw [bind_ok, en]
    refine ⟨A, h1, bind_ok.2 ⟨S0.norm rng, by rw [el]; exact h2, ?_⟩⟩
    rw [foldlM_groups, ← e1]
    congr 1
    simp only [Scn.save, hinfo, hb.1, List.flatMap_map, List.map_flatMap]
  · rw [e2]; rfl
  · intro l hl
    rw [k2.links] at hl
    rw [e2, hfl, hdt, k2.L]
    exact if_pos hl
  · intro l hl
    rw [k2.links] at hl
    rw [e2, k2.L, hz l hl]
    exact if_neg (Nat.not_lt.2 hl)
  · have q0 : S2.info = bs.map fun g => (g.1, g.2.map (·.mapRef (Scn.saveRef S.W))) := by
      rw [e5]
      show List.foldl _ S0.info _ = _
      rw [hR.info, hb.1]
      have := record_blocks (bs.map fun g => (g.1, g.2.map (·.mapRef (Scn.saveRef S.W)))) []
        (by simpa [Function.comp_def] using hb.2.1) (by
          intro b hb'
          obtain ⟨g, hg, rfl⟩ := List.mem_map.1 hb'
          obtain ⟨q1, q2⟩ := hb.2.2 g hg
          refine ⟨by simpa using q1, fun c hc => ?_⟩
          obtain ⟨c', hc', rfl⟩ := List.mem_map.1 hc
          rw [mapRef_kind]; exact q2 c' hc')
      simpa [List.flatMap_map, List.map_flatMap] using this
    have q1 : ∀ c : DemandCall, (c.mapRef (Scn.saveRef S.W)).mapRef (Scn.saveRef S2.W) =
        c.mapRef (Scn.saveRef S.W) := by
      have hr : ∀ r, Scn.saveRef S2.W (Scn.saveRef S.W r) = Scn.saveRef S.W r := by
        intro r; cases r <;> rfl
      intro c
      cases c <;> simp [DemandCall.mapRef, hr, List.map_map, Function.comp_def]
    have q2 : S2.save.nodes = S.save.nodes := by
      have : S2.saveNode = S.saveNode := by funext i; simp only [Scn.saveNode, e2]; rfl
      simp only [Scn.save, this, e2]; rfl
    have q3 : S2.save.links = S.save.links := by
      have : S2.saveLink = S.saveLink := by
        funext i; simp only [Scn.saveLink, e2, e3.trans k3.symm, e4.trans k4.symm]; rfl
      simp only [Scn.save, this, e2]; rfl
    have q4 : S2.save.demands = S.save.demands := by
      simp only [Scn.save, q0, hinfo, List.map_map, Function.comp_def, q1]
    cases h2 : S2.save; cases hS : S.save
    rw [h2, hS] at q2 q3 q4
    simp only at q2 q3 q4
    rw [q2, q3, q4]

/-- The links among the calls that build a network. -/
def NetCmd.linkArgs : NetCmd → Option LinkArgs
  | .node _ _ => none
  | .link a => some a

theorem given_capIn {cfg tmax rng} {ns : List NetCmd} {S : Scn}
    (hn : ns.foldlM NetCmd.run (Scn.new cfg tmax rng) = .ok S)
    (hg : ∀ c ∈ ns, ∀ a, c.linkArgs = some a → a.capIn ≠ none) :
    ∀ l < S.W.nLinks, S.W.L.capInRem l = S.W.fl (S.W.L.capIn l * S.W.dt) := by
  refine foldlM_inv (P := fun S : Scn => ∀ l < S.W.nLinks, S.W.L.capInRem l = S.W.fl (S.W.L.capIn l * S.W.dt))
    (fun S c S' hcm hP hc => ?_) (fun l hl => absurd hl (Nat.not_lt_zero l)) hn
  cases c with
  | node fuel a =>
    obtain ⟨W', hW, rfl⟩ := map_ok'.1 hc
    obtain ⟨ph, t, soff, -, -, rfl⟩ := addNode_ok hW
    exact hP
  | link a =>
    have ha := hg _ hcm a rfl
    obtain ⟨W', hW, rfl⟩ := map_ok'.1 hc
    obtain ⟨s, e, nm, k, p, -, -, -, -, -, -, rfl⟩ := addLink_ok hW
    intro l hl
    have hl' : l < S.W.nLinks + 1 := hl
    simp only [addLinkRes, upd_apply]
    split
    · cases hc : a.capIn with
      | none => exact absurd hc ha
      | some c => rfl
    · rename_i hne
      exact hP l (Nat.lt_of_le_of_ne (Nat.le_of_lt_succ hl') hne)

/-- C41, simulation, as far as it holds: if moreover every link was created with an explicit
`capacity_in`, the loaded world is identical to the saved one, so that whatever is done with it has the
same result. -/
theorem C41_same_partial {cfg tmax rng} {ns : List NetCmd} {ds : List DemandCall} {S0 S : Scn} {bs}
    (hn : ns.foldlM NetCmd.run (Scn.new cfg tmax rng) = .ok S0) (hd : ds.foldlM Scn.demand S0 = .ok S)
    (hb : Blocks ds bs) (hg : ∀ c ∈ ns, ∀ a, c.linkArgs = some a → a.capIn ≠ none) :
    ∃ f0, ∀ fuel ≥ f0, ∃ S', (Scn.new cfg tmax rng).load fuel S.save = .ok S' ∧ S'.W = S.W := by
  obtain ⟨f0, h⟩ := C41_load_partial hn hd hb
  refine ⟨f0, fun fuel hf => ?_⟩
  obtain ⟨S', h1, h2, h3, h4, -⟩ := h fuel hf
  refine ⟨S', h1, ?_⟩
  obtain ⟨hR, hrng, hz⟩ := net_rng hn
  obtain ⟨-, k2, -⟩ := demands_run hd hR.reach
  have : S'.W.L.capInRem = S.W.L.capInRem := by
    funext l
    rcases Nat.lt_or_ge l S.W.nLinks with hl | hl
    · rw [h3 l hl]
      have := given_capIn hn hg l (by rw [← k2.links]; exact hl)
      unfold World.fl World.dt at *
      rw [k2.cfg, k2.L, ← this]
    · exact h4 l hl
  rw [h2, this]

/-! ## Where saving and loading does not preserve the scenario -/

/-- A slow street and a demand of one platoon. -/
def slowNet : List NetCmd :=
  [.node 1 { name := "a" }, .node 1 { name := "b", x := 1 },
   .link { startN := .obj 0, endN := .obj 1, length := 100, u := 1 }]

/-- Build, save, and load into a fresh world; the original and the copy. -/
def saveLoad (ns : List NetCmd) (f : Scn → M Scn) : M (Scn × Scn) := do
  let S0 ← ns.foldlM NetCmd.run (Scn.new demoCfg none (fun _ => 0))
  let S ← f S0
  let S' ← (Scn.new demoCfg none (fun _ => 0)).load 1 S.save
  pure (S, S')

def obs2 (m : M (Scn × Scn)) (p : Scn → Scn → Bool) : Bool :=
  match m with | .ok (S, S') => p S S' | .error _ => false

theorem obs2_ok {ns f p} (h : obs2 (saveLoad ns f) p = true) : ∃ S0 S S',
    ns.foldlM NetCmd.run (Scn.new demoCfg none (fun _ => 0)) = .ok S0 ∧ f S0 = .ok S ∧
    (Scn.new demoCfg none (fun _ => 0)).load 1 S.save = .ok S' ∧ p S S' = true := by
  unfold obs2 at h
  split at h
  · rename_i S S' hm
    unfold saveLoad at hm
    rw [bind_ok] at hm
    obtain ⟨S0, h1, hm⟩ := hm
    rw [bind_ok] at hm
    obtain ⟨S, h2, hm⟩ := hm
    rw [bind_ok] at hm
    obtain ⟨S', h3, hm⟩ := hm
    rw [pure_ok] at hm
    cases hm
    exact ⟨S0, S, S', h1, h2, h3, h⟩
  · cases h

/-- Two steps of simulation. -/
def twoSteps (W : World) : M World := do
  let W1 ← (W.finalize (some 100)).tick
  W1.tick

set_option maxRecDepth 100000 in
/-- C41 is false of the code, simulation: by default a link starts with unused inflow capacity
`2·capacity`, while the saved `capacity_in` makes the copy start with `2·capacity·Δt`. On a slow street
the first vehicle of the copy is on the road after two steps, that of the original still waits. -/
theorem C41_simulation_false : ∃ (ns : List NetCmd) (ds : List DemandCall) (S0 S S' : Scn),
    ns.foldlM NetCmd.run (Scn.new demoCfg none (fun _ => 0)) = .ok S0 ∧
    ds.foldlM Scn.demand S0 = .ok S ∧ (Scn.new demoCfg none (fun _ => 0)).load 1 S.save = .ok S' ∧
    ∃ W W', twoSteps S.W = .ok W ∧ twoSteps S'.W = .ok W' ∧ W.V.state 0 = .wait ∧ W'.V.state 0 = .run := by
  have h : obs2 (saveLoad slowNet fun S => [DemandCall.demand (.obj 0) (.name "b") 0 5 1 (-1)].foldlM Scn.demand S)
      (fun S S' => obs (twoSteps S.W) (fun W => obs (twoSteps S'.W) fun W' =>
        decide (W.V.state 0 = .wait ∧ W'.V.state 0 = .run))) = true := by decide +kernel
  obtain ⟨S0, S, S', h1, h2, h3, h4⟩ := obs2_ok h
  obtain ⟨W, h5, h6⟩ := obs_ok h4
  obtain ⟨W', h7, h8⟩ := obs_ok h6
  simp only [decide_eq_true_eq] at h8
  exact ⟨_, _, S0, S, S', h1, h2, h3, W, W', h5, h7, h8⟩

/-- C41 is false of the code, demand: vehicles added by `addVehicle` are not saved. -/
theorem C41_vehicles_false : ∃ (ns : List NetCmd) (a : VehArgs) (S0 S S' : Scn),
    ns.foldlM NetCmd.run (Scn.new demoCfg none (fun _ => 0)) = .ok S0 ∧
    S0.addVehicle a = .ok S ∧ (Scn.new demoCfg none (fun _ => 0)).load 1 S.save = .ok S' ∧
    S.W.nVeh = 1 ∧ S'.W.nVeh = 0 := by
  have h : obs2 (saveLoad slowNet fun S => S.addVehicle { orig := .obj 0, dest := some (.obj 1), dep := .step 0 })
      (fun S S' => decide (S.W.nVeh = 1 ∧ S'.W.nVeh = 0)) = true := by decide +kernel
  obtain ⟨S0, S, S', h1, h2, h3, h4⟩ := obs2_ok h
  simp only [decide_eq_true_eq] at h4
  exact ⟨_, _, S0, S, S', h1, h2, h3, h4⟩

/-- C41 is false of the code, order: calls of different demand functions are regrouped, so that the
same number designates another vehicle. -/
theorem C41_order_false : ∃ (ns : List NetCmd) (ds : List DemandCall) (S0 S S' : Scn),
    ns.foldlM NetCmd.run (Scn.new demoCfg none (fun _ => 0)) = .ok S0 ∧
    ds.foldlM Scn.demand S0 = .ok S ∧ (Scn.new demoCfg none (fun _ => 0)).load 1 S.save = .ok S' ∧
    S.W.nVeh = 3 ∧ S'.W.nVeh = 3 ∧ S.W.V.depTime 1 = 2 ∧ S'.W.V.depTime 1 = 4 := by
  have h : obs2 (saveLoad slowNet fun S =>
      [DemandCall.demand (.obj 0) (.obj 1) 0 5 1 (-1), .points 0 0 1 0 10 15 1 (-1),
        .demand (.obj 0) (.obj 1) 20 25 1 (-1)].foldlM Scn.demand S)
      (fun S S' => decide (S.W.nVeh = 3 ∧ S'.W.nVeh = 3 ∧ S.W.V.depTime 1 = 2 ∧ S'.W.V.depTime 1 = 4)) = true := by
    decide +kernel
  obtain ⟨S0, S, S', h1, h2, h3, h4⟩ := obs2_ok h
  simp only [decide_eq_true_eq] at h4
  exact ⟨_, _, S0, S, S', h1, h2, h3, h4⟩

/-- C41 is false of the code, signals: `override_signal` with an offset starts the new plan in phase 0
and only records the offset; the copy starts where the offset says. -/
theorem C41_signal_false : ∃ (ns : List NetCmd) (S0 S S' : Scn),
    ns.foldlM NetCmd.run (Scn.new demoCfg none (fun _ => 0)) = .ok S0 ∧
    S = { S0 with W := S0.W.overrideSignal 1 [30, 60] 80 true } ∧
    (Scn.new demoCfg none (fun _ => 0)).load 1 S.save = .ok S' ∧
    S.W.N.phase 1 = 0 ∧ S'.W.N.phase 1 = 0 ∧ S.W.N.signalT 1 = 0 ∧ S'.W.N.signalT 1 = 10 := by
  have h : obs2 (saveLoad slowNet fun S => .ok { S with W := S.W.overrideSignal 1 [30, 60] 80 true })
      (fun S S' => decide (S.W.N.phase 1 = 0 ∧ S'.W.N.phase 1 = 0 ∧ S.W.N.signalT 1 = 0 ∧
        S'.W.N.signalT 1 = 10)) = true := by decide +kernel
  obtain ⟨S0, S, S', h1, h2, h3, h4⟩ := obs2_ok h
  simp only [decide_eq_true_eq] at h4
  exact ⟨_, S0, S, S', h1, (Except.ok.inj h2).symm, h3, h4⟩

/-- A case of `C41_load_partial` and `C41_same_partial`: the links have their capacity given, there are
two blocks of calls, and the original and the copy have the same two vehicles. -/
example : obs2 (saveLoad [.node 1 { name := "a" }, .link { name := some "loop", startN := .obj 0, endN := .obj 0, length := 100, capIn := some 1 },
      .node 1 { name := "b", x := 1 }, .link { startN := .obj 0, endN := .name "b", length := 100, capIn := some 1 }]
    fun S => [DemandCall.demand (.obj 0) (.obj 1) 0 5 1 (-1), .points 0 0 1 0 10 15 1 (-1)].foldlM Scn.demand S)
    (fun S S' => decide (S.W.nVeh = 2 ∧ S'.W.nVeh = 2 ∧ S'.W.V.depTime 1 = 2 ∧ S'.W.L.capInRem 1 = 5 ∧
      S.W.L.capInRem 1 = 5 ∧ S'.W.N.outlinks 0 = [0, 1])) = true := by decide +kernel

example : Blocks [DemandCall.demand (.obj 0) (.obj 1) 0 5 1 (-1), .points 0 0 1 0 10 15 1 (-1)]
    [(.demand, [.demand (.obj 0) (.obj 1) 0 5 1 (-1)]), (.points, [.points 0 0 1 0 10 15 1 (-1)])] := by
  refine ⟨rfl, by decide, ?_⟩
  intro b hb
  simp only [List.mem_cons, List.not_mem_nil, or_false] at hb
  rcases hb with rfl | rfl <;> simp [DemandCall.kind]

end UX
