import Verif.Model.Areas

/-!
# Saving and loading scenarios (scenario_reader_writer.py)

A scenario is a world together with the attributes that only saving uses. Files are values; pickling
is not modelled. `eular_dx`, user attributes and functions, `auto_rename` and `meta_data` are left out.
-/

namespace UX

/-- The demand functions whose calls are recorded (uxsim.py:2021, 2057, 2087, 2148, 2196, 2262). -/
inductive DemandKind
  | demand | points | areas | nodes | areas2 | nodes2
  deriving DecidableEq, Repr

/-- One recorded call: all arguments after `apply_defaults` (scenario_reader_writer.py:20–35). -/
inductive DemandCall
  | demand (o d : Ref) (ts te flow volume : ℚ)
  | points (xo yo xd yd ts te flow volume : ℚ)
  | areas (xo yo ro xd yd rd ts te flow volume : ℚ)
  | nodes (os ds : List Ref) (ts te flow volume : ℚ)
  | areas2 (xo yo ro xd yd rd ts te flow volume : ℚ)
  | nodes2 (os ds : List Ref) (ts te flow volume : ℚ)
  deriving DecidableEq, Repr

namespace DemandCall

def kind : DemandCall → DemandKind
  | .demand .. => .demand
  | .points .. => .points
  | .areas .. => .areas
  | .nodes .. => .nodes
  | .areas2 .. => .areas2
  | .nodes2 .. => .nodes2

/-- The call itself. -/
def apply (W : World) : DemandCall → M World
  | .demand o d ts te q n => W.addDemand o d ts te q n
  | .points xo yo xd yd ts te q n => W.addDemandPoints xo yo xd yd ts te q n
  | .areas xo yo ro xd yd rd ts te q n => W.addDemandAreas xo yo ro xd yd rd ts te q n
  | .nodes os ds ts te q n => W.addDemandNodes os ds ts te q n
  | .areas2 xo yo ro xd yd rd ts te q n => W.addDemandAreas2 xo yo ro xd yd rd ts te q n
  | .nodes2 os ds ts te q n => W.addDemandNodes2 os ds ts te q n

/-- The call with every node designation replaced. -/
def mapRef (f : Ref → Ref) : DemandCall → DemandCall
  | .demand o d ts te q n => .demand (f o) (f d) ts te q n
  | .nodes os ds ts te q n => .nodes (os.map f) (ds.map f) ts te q n
  | .nodes2 os ds ts te q n => .nodes2 (os.map f) (ds.map f) ts te q n
  | c => c

end DemandCall

/-- `W.demand_info`: a `defaultdict(list)`, keys in order of first use (uxsim.py:1830). -/
abbrev DemandInfo := List (DemandKind × List DemandCall)

/-- `self.demand_info[func_name].append(args)` (scenario_reader_writer.py:35) -/
def DemandInfo.record : DemandInfo → DemandCall → DemandInfo
  | [], c => [(c.kind, [c])]
  | (k, cs) :: t, c => if k = c.kind then (k, cs ++ [c]) :: t else (k, cs) :: DemandInfo.record t c

/-- A world with the further attributes that saving reads: `jam_density` and `jam_density_per_lane`
of each link as given by the user (uxsim.py:535–536), and `demand_info`. -/
structure Scn where
  W : World
  jam : LinkId → ℚ
  jamPerLane : LinkId → Option ℚ
  info : DemandInfo

/-- Keyword arguments of a saved node; a value equal to the default is not saved
(scenario_reader_writer.py:82–84). `flow_capacity` and `number_of_lanes` have the default `None`. -/
structure SavedNode where
  name : String
  x : ℚ
  y : ℚ
  signal : Option (List ℚ)
  signalOffset : Option ℚ
  flowCap : Option ℚ
  lanes : Option ℕ

/-- Keyword arguments of a saved link. No toll is the constant zero toll. -/
structure SavedLink where
  name : String
  startN : Ref
  endN : Ref
  length : ℚ
  u : Option ℚ
  jamDensity : Option ℚ
  jamPerLane : Option ℚ
  lanes : Option ℚ
  mergePriority : Option ℚ
  signalGroup : Option (List ℕ)
  capOut : Option ℚ
  capIn : Option ℚ
  toll : ℚ → ℚ

/-- The content of a scenario file. -/
structure Saved where
  nodes : List SavedNode
  links : List SavedLink
  demands : DemandInfo

/-- `if value == param.default: continue` (scenario_reader_writer.py:82–83) -/
def unlessDefault {α : Type} [DecidableEq α] (d v : α) : Option α := if v = d then none else some v

namespace Scn
open World

def new (cfg : Config) (tmax : Option ℚ) (rng : ℕ → ℕ) : Scn where
  W := World.new cfg tmax rng
  jam := fun _ => 0
  jamPerLane := fun _ => none
  info := []

/-- `World.addNode` -/
def addNode (S : Scn) (fuel : ℕ) (a : NodeArgs) : M Scn :=
  (S.W.addNode fuel a).map fun W => { S with W := W }

/-- `World.addLink`, remembering `jam_density` and `jam_density_per_lane` (uxsim.py:535–536) -/
def addLink (S : Scn) (a : LinkArgs) : M Scn :=
  (S.W.addLink a).map fun W => { S with
    W := W
    jam := upd S.jam S.W.nLinks a.jamDensity
    jamPerLane := upd S.jamPerLane S.W.nLinks a.jamPerLane }

/-- `World.addVehicle`: not recorded. -/
def addVehicle (S : Scn) (a : VehArgs) : M Scn :=
  (S.W.addVehicle a).map fun W => { S with W := W }

/-- A demand call by the user, through the decorator (scenario_reader_writer.py:10–40). The model
returns only the exception when the call raises (Python keeps the record). -/
def demand (S : Scn) (c : DemandCall) : M Scn :=
  (c.apply S.W).map fun W => { S with W := W, info := DemandInfo.record S.info c }

/-- `instance_to_arg_dict` for a node (scenario_reader_writer.py:42–95). `signal_offset_old` is not an
attribute and never saved. -/
def saveNode (S : Scn) (i : NodeId) : SavedNode where
  name := S.W.N.name i
  x := S.W.N.x i
  y := S.W.N.y i
  signal := unlessDefault [0] (S.W.N.signal i)
  signalOffset := unlessDefault 0 (S.W.N.signalOffset i)
  flowCap := S.W.N.flowCap i
  lanes := S.W.N.lanes i

/-- `instance_to_arg_dict` for a link; nodes become names. -/
def saveLink (S : Scn) (l : LinkId) : SavedLink where
  name := S.W.L.name l
  startN := .name (S.W.N.name (S.W.L.startN l))
  endN := .name (S.W.N.name (S.W.L.endN l))
  length := S.W.L.length l
  u := unlessDefault 20 (S.W.L.u l)
  jamDensity := unlessDefault (1/5) (S.jam l)
  jamPerLane := S.jamPerLane l
  lanes := unlessDefault 1 (S.W.L.lanes l : ℚ)
  mergePriority := unlessDefault 1 (S.W.L.mergePriority l)
  signalGroup := unlessDefault [0] (S.W.L.signalGroup l)
  capOut := some (S.W.L.capOut l)
  capIn := some (S.W.L.capIn l)
  toll := S.W.L.toll l

/-- A recorded node object. Unpickled it is not an element of the new world's `NODES`, and `get_node`
looks up its name (uxsim.py:2548–2551). -/
def saveRef (W : World) : Ref → Ref
  | .name s => .name s
  | .obj i => .name (W.N.name i)

/-- `save_scenario` (scenario_reader_writer.py:97–150) -/
def save (S : Scn) : Saved where
  nodes := (List.range S.W.nNodes).map S.saveNode
  links := (List.range S.W.nLinks).map S.saveLink
  demands := S.info.map fun g => (g.1, g.2.map (·.mapRef (saveRef S.W)))

end Scn

/-- `W.addNode(**n)` -/
def SavedNode.args (n : SavedNode) : World.NodeArgs where
  name := n.name
  x := n.x
  y := n.y
  signal := n.signal.getD [0]
  signalOffset := n.signalOffset.getD 0
  flowCap := n.flowCap
  lanes := n.lanes

/-- `W.addLink(**l)` -/
def SavedLink.args (l : SavedLink) : World.LinkArgs where
  name := some l.name
  startN := l.startN
  endN := l.endN
  length := l.length
  u := l.u.getD 20
  jamDensity := l.jamDensity.getD (1/5)
  jamPerLane := l.jamPerLane
  lanes := l.lanes.getD 1
  mergePriority := l.mergePriority.getD 1
  signalGroup := l.signalGroup.getD [0]
  capOut := l.capOut
  capIn := l.capIn
  toll := l.toll

/-- `load_scenario` (scenario_reader_writer.py:152–219): nodes, links, then the demand calls function
by function. -/
def Scn.load (fuel : ℕ) (S : Scn) (d : Saved) : M Scn := do
  let S1 ← d.nodes.foldlM (fun S n => S.addNode fuel n.args) S
  let S2 ← d.links.foldlM (fun S l => S.addLink l.args) S1
  d.demands.foldlM (fun S g => g.2.foldlM Scn.demand S) S2

end UX
