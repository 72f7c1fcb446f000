import Verif.Proofs.Inv

/-! Concrete scenarios used as witnesses that hypotheses of the theorems can be met. -/

namespace UX
open World

/-- API calls as data, to write scenarios down. -/
inductive Cmd
  | node (a : NodeArgs) | link (a : LinkArgs) | veh (a : VehArgs) | fin (tmax : Option ℚ) | tick
  | route (v : VehId) (r : List Ref)
  | request (o d : Ref) (t : ℚ) | assign (v : VehId) (r : ReqId)
  | speed (l : LinkId) (q : ℚ) | capIn (l : LinkId) (q : ℚ) | capOut (l : LinkId) (q : ℚ)
  | signal (n : NodeId) (sg : List ℚ) (off : ℚ) (reset : Bool)

def Cmd.run (W : World) : Cmd → M World
  | .node a => if W.finalized then .error .exception else W.addNode 100 a
  | .link a => if W.finalized then .error .exception else W.addLink a
  | .veh a => W.addVehicle a
  | .fin t => if W.finalized then .error .exception else .ok (W.finalize t)
  | .tick => if W.finalized = true ∧ W.T < W.tsize then W.tick else .error .exception
  | .route v r => if v < W.nVeh then W.enforceRoute v r false else .error .exception
  | .request o d t => W.addTripRequest o d t
  | .assign v r => if v < W.nVeh then W.assignTaxi v r else .error .exception
  | .speed l q => if l < W.nLinks then W.changeFreeFlowSpeed l q else .error .exception
  | .signal n sg off reset => if n < W.nNodes then .ok (W.overrideSignal n sg off reset) else .error .exception
  | .capIn l q => if l < W.nLinks then .ok { W with L := { W.L with capIn := upd W.L.capIn l q } }
      else .error .exception
  | .capOut l q => if l < W.nLinks then .ok { W with L := { W.L with capOut := upd W.L.capOut l q } }
      else .error .exception

theorem Cmd.run_api {W W' : World} {c : Cmd} (h : c.run W = .ok W') : ApiStep W W' := by
  cases c <;> simp only [Cmd.run] at h
  case node => split at h; · simp at h
               · exact .addNode (by simp_all) h
  case link => split at h; · simp at h
               · exact .addLink (by simp_all) h
  case veh => exact .addVehicle h
  case fin => split at h; · simp at h
              · simp at h; subst h; exact .finalize (by simp_all)
  case tick => split at h
               · rename_i hc; exact .tick hc.1 hc.2 h
               · simp at h
  case route => split at h
                · rename_i hc; exact .enforceRoute hc h
                · simp at h
  case request => exact .addTripRequest h
  case assign => split at h
                 · rename_i hc; exact .assignTaxi hc h
                 · simp at h
  case speed => split at h
                · rename_i hc; exact .changeFreeFlowSpeed hc h
                · simp at h
  case signal => split at h
                 · rename_i hc; simp at h; subst h; exact .overrideSignal hc
                 · simp at h
  case capIn => split at h
                · rename_i hc; simp at h; subst h; exact .setCapIn hc
                · simp at h
  case capOut => split at h
                 · rename_i hc; simp at h; subst h; exact .setCapOut hc
                 · simp at h

/-- exact arithmetic, no noise, logging every step; the shortest-path routine is a stub that sends
everybody to node 1 directly -/
def demoCfg : Config where
  fl := id
  deltan := 5
  reactionTime := 1
  duoUpdateTime := 600
  duoUpdateWeight := 1/2
  duoNoise := 0
  principle := .homogeneous
  gradual := false
  ttInterval0 := 5
  noCyclic := false
  adjustNodeCap := false
  logInterval := 1
  hardDet := false
  dijkstra := fun _ _ => (fun _ _ => some 0, fun _ j => some j)

def runCmds (cfg : Config) (rng : ℕ → ℕ) (cs : List Cmd) : M World :=
  cs.foldlM Cmd.run (World.new cfg none rng)

theorem runCmds_reachable {cfg rng cs W} (h : runCmds cfg rng cs = .ok W) : Reachable Any W :=
  foldlM_inv (P := Reachable Any) (fun _ _ _ _ hr hc => .next hr (Cmd.run_api hc) trivial)
    (.new trivial) h

/-- Run a scenario, checking `p` in every world on the way. -/
def runChecked (p : World → Bool) (cfg : Config) (rng : ℕ → ℕ) (cs : List Cmd) : M World :=
  if p (World.new cfg none rng) then
    cs.foldlM (fun W c => do
      let W' ← c.run W
      if p W' then pure W' else .error .exception) (World.new cfg none rng)
  else .error .exception

theorem runChecked_reachable' {OK : World → Prop} {p : World → Bool} {cfg rng cs W}
    (hp : ∀ W, W.cfg = cfg → p W = true → OK W) (h : runChecked p cfg rng cs = .ok W) :
    Reachable OK W := by
  unfold runChecked at h
  split at h
  · rename_i h0
    refine (foldlM_inv (P := fun W => Reachable OK W ∧ W.cfg = cfg) (fun W c W' _ hr hc => ?_)
      ⟨.new (hp _ rfl h0), rfl⟩ h).1
    obtain ⟨W1, h1, h2⟩ := bind_ok.mp hc
    split at h2
    · rename_i h3
      rw [pure_ok] at h2
      subst h2
      have hcfg := ((Cmd.run_api h1).cfg hr.1.inv).trans hr.2
      exact ⟨.next hr.1 (Cmd.run_api h1) (hp _ hcfg h3), hcfg⟩
    · cases h2
  · cases h

theorem runChecked_reachable {OK : World → Prop} {p : World → Bool} (hp : ∀ W, p W = true → OK W)
    {cfg rng cs W} (h : runChecked p cfg rng cs = .ok W) : Reachable OK W :=
  runChecked_reachable' (fun W _ => hp W) h

/-- observe a property of a scenario's result -/
def obs {α : Type} (m : M α) (p : α → Bool) : Bool := match m with | .ok W => p W | .error _ => false

theorem obs_ok {α : Type} {m : M α} {p : α → Bool} (h : obs m p = true) : ∃ W, m = .ok W ∧ p W = true := by
  unfold obs at h; split at h
  · exact ⟨_, rfl, h⟩
  · cases h

/-- Two links in a row, two vehicles. -/
def demo1 (k : ℕ) : List Cmd :=
  [.node { name := "a" }, .node { name := "b" }, .node { name := "c" },
   .link { startN := .obj 0, endN := .obj 1, length := 200 },
   .link { startN := .obj 1, endN := .obj 2, length := 200 },
   .veh { orig := .obj 0, dest := some (.obj 2), dep := .step 0 },
   .veh { orig := .obj 0, dest := some (.obj 2), dep := .step 0 },
   .fin (some 300)] ++ List.replicate k .tick

set_option maxRecDepth 10000 in
example : obs (runCmds demoCfg (fun _ => 0) (demo1 4)) (fun W => decide (W.V.state 0 = .run)) = true := by
  decide +kernel

/-- Like `demo1`, with more vehicles and a late one. -/
def demo2 (k : ℕ) : List Cmd :=
  [.node { name := "a" }, .node { name := "b" }, .node { name := "c" },
   .link { startN := .obj 0, endN := .obj 1, length := 200 },
   .link { startN := .obj 1, endN := .obj 2, length := 200 },
   .veh { orig := .obj 0, dest := some (.obj 2), dep := .step 0 },
   .veh { orig := .obj 0, dest := some (.obj 2), dep := .step 0 },
   .veh { orig := .obj 0, dest := some (.obj 2), dep := .step 3 },
   .veh { orig := .obj 0, dest := some (.obj 2), dep := .step 3 },
   .veh { orig := .obj 0, dest := some (.obj 2), dep := .step 3 },
   .veh { orig := .obj 0, dest := some (.obj 2), dep := .step 30 },
   .fin (some 300)] ++ List.replicate k .tick

end UX
