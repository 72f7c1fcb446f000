import Verif.Model.Taxi

/-!
# Histories

`ApiStep W W'`: one API call, or one simulation time step, leads from `W` to `W'`.  A call that raises
leaves no `ApiStep` (scenario-building calls that raise do not change the world, apart from consumed
random numbers, which `reseed` covers; a simulation step that raises ends the history).

`Reachable OK W`: `W` is reached from an empty world by a history all of whose worlds satisfy `OK`.
`OK` is how theorems state assumptions on user-chosen parameters (`fun _ => True` for none).
-/

namespace UX
namespace World

/-- One time step of the main loop followed by `W.T += 1` (uxsim.py:2455–2500). -/
def tick (W : World) : M World := do
  let W1 ← W.step
  pure { W1 with T := W1.T + 1 }

/-- `Link.change_free_flow_speed` (uxsim.py:963–971). `q_star` and `k_star` are not refreshed. -/
def changeFreeFlowSpeed (W : World) (l : LinkId) (q : ℚ) : M World :=
  if 0 ≤ q then
    if W.L.tau l = 0 ∨ W.L.kappa l = 0 then .error .zeroDivision
    else
      let w := W.fl (W.fl (1 / W.L.tau l) / W.L.kappa l)
      if W.fl (q + w) = 0 then .error .zeroDivision
      else .ok { W with L := { W.L with
        u := upd W.L.u l q
        w := upd W.L.w l w
        capacity := upd W.L.capacity l
          (W.fl (W.fl (W.fl (q * w) * W.L.kappa l) / W.fl (q + w)))
        delta := upd W.L.delta l (W.fl (1 / W.L.kappa l)) } }
  else .ok W

/-- `Link.change_jam_density` (uxsim.py:973–984). -/
def changeJamDensity (W : World) (l : LinkId) (q : ℚ) : M World :=
  if 0 ≤ q then
    if W.L.tau l = 0 ∨ q = 0 then .error .zeroDivision
    else
      let w := W.fl (W.fl (1 / W.L.tau l) / q)
      if W.fl (W.L.u l + w) = 0 then .error .zeroDivision
      else .ok { W with L := { W.L with
        kappa := upd W.L.kappa l q
        w := upd W.L.w l w
        capacity := upd W.L.capacity l
          (W.fl (W.fl (W.fl (W.L.u l * w) * q) / W.fl (W.L.u l + w)))
        delta := upd W.L.delta l (W.fl (1 / q))
        deltaPerLane := upd W.L.deltaPerLane l (W.fl (W.fl (1 / q) * W.L.lanes l)) } }
  else .ok W

end World

open World

/-- One API call or one simulation step. Nodes and links are added before finalization only (Python
accepts later additions but the arrays built by `finalize_scenario` then have the wrong size; not
modelled). Jam density is changed only on links that are currently empty. -/
inductive ApiStep : World → World → Prop
  | addNode {W W' fuel a} : W.finalized = false → W.addNode fuel a = .ok W' → ApiStep W W'
  | addLink {W W' a} : W.finalized = false → W.addLink a = .ok W' → ApiStep W W'
  | addVehicle {W W' a} : W.addVehicle a = .ok W' → ApiStep W W'
  | finalize {W tmax} : W.finalized = false → ApiStep W (W.finalize tmax)
  | tick {W W'} : W.finalized = true → W.T < W.tsize → W.tick = .ok W' → ApiStep W W'
  /-- end of an `exec_simulation` call: `W.TIME = W.T*W.DELTAT` (uxsim.py:2501) -/
  | endExec {W} : W.finalized = true → ApiStep W { W with time := W.now }
  | overrideSignal {W n sg off reset} : n < W.nNodes → ApiStep W (W.overrideSignal n sg off reset)
  | overrideSignalGroups {W W' n sg gs off reset} : n < W.nNodes →
      W.overrideSignalGroups n sg gs off reset = .ok W' → ApiStep W W'
  | enforceRoute {W W' v r b} : v < W.nVeh → W.enforceRoute v r b = .ok W' → ApiStep W W'
  | setLinksPrefer {W W' v ls} : v < W.nVeh → W.setLinksPrefer v ls = .ok W' → ApiStep W W'
  | setLinksAvoid {W W' v ls} : v < W.nVeh → W.setLinksAvoid v ls = .ok W' → ApiStep W W'
  | addDest {W W' v d k} : v < W.nVeh → d < W.nNodes → W.addDest v d k = .ok W' → ApiStep W W'
  | addTripRequest {W W' o d t} : W.addTripRequest o d t = .ok W' → ApiStep W W'
  | assignTaxi {W W' v r} : v < W.nVeh → W.assignTaxi v r = .ok W' → ApiStep W W'
  /-- assignment `link.capacity_out = q` -/
  | setCapOut {W l q} : l < W.nLinks →
      ApiStep W { W with L := { W.L with capOut := upd W.L.capOut l q } }
  /-- assignment `link.capacity_in = q` -/
  | setCapIn {W l q} : l < W.nLinks →
      ApiStep W { W with L := { W.L with capIn := upd W.L.capIn l q } }
  | changeFreeFlowSpeed {W W' l q} : l < W.nLinks → W.changeFreeFlowSpeed l q = .ok W' →
      ApiStep W W'
  | changeJamDensity {W W' l q} : l < W.nLinks → W.L.vehs l = [] →
      W.changeJamDensity l q = .ok W' → ApiStep W W'
  /-- the generator `W.rng` is replaced or advanced -/
  | reseed {W r} : ApiStep W { W with rng := r }

/-- `W` is reached from an empty world by a history of API calls and steps through worlds satisfying
`OK`. -/
inductive Reachable (OK : World → Prop) : World → Prop
  | new {cfg tmax rng} : OK (World.new cfg tmax rng) → Reachable OK (World.new cfg tmax rng)
  | next {W W'} : Reachable OK W → ApiStep W W' → OK W' → Reachable OK W'

/-- No assumption. -/
def Any : World → Prop := fun _ => True

end UX
