import Verif.Model.Build
import Verif.Model.Sim

/-!
# Utilities (uxsim/Utilities/Utilities.py)

Functions that inspect a world. They do not change it.
-/

namespace UX
namespace World

/-! ## Shortest instantaneous travel times -/

/-- `get_shortest_path_instantaneous_travel_time_between_all_nodes` (Utilities.py:266–293) with
`return_matrix=True`. Before `finalize_scenario` there is no `ROUTECHOICE`. The dictionary form of the
result (same values under node objects and node names) is not modelled. -/
def distNow (W : World) : M (NodeId → NodeId → Option ℚ) :=
  if W.finalized then .ok W.R.dist else .error .attributeError

/-- The clamped time (Utilities.py:317–318). -/
def clampTime (W : World) (tmax t : ℚ) : ℚ := if tmax ≤ t then W.fl (tmax - W.dt) else t

/-- The time step looked up (Utilities.py:319–320): `duo_t` and `duo_timestep`. -/
def duoStep (W : World) (t : ℚ) : ℤ × ℤ :=
  let duoT : ℤ := ⌊t / W.cfg.duoUpdateTime⌋
  (duoT, pyInt (W.fl (W.fl (duoT * W.cfg.duoUpdateTime) / W.dt)))

/-- `get_shortest_path_instantaneous_travel_time_between_all_nodes_on_t` (Utilities.py:295–337) with
`return_matrix=True, return_time=True`: the matrix and `duo_t`. Comparing `t` with an unset `TMAX` is a
`TypeError` (`exception` in the model). -/
def distOnT (W : World) (t : ℚ) : M ((NodeId → NodeId → Option ℚ) × ℤ) :=
  match W.tmax with
  | none => .error .exception
  | some tm =>
    if W.cfg.duoUpdateTime = 0 ∨ W.dt = 0 then .error .zeroDivision
    else if W.finalized = false then .error .attributeError
    else
      let (duoT, k) := W.duoStep (W.clampTime tm t)
      if k < 0 then .error .keyError
      else match W.R.record k.toNat with
        | some d => .ok (d, duoT)
        | none => .error .keyError

/-! ## Shortest distances -/

/-- `distances[i, j] = min(distances[i, j], link.length)` (Utilities.py:247–250); `none` is infinity. -/
def lengthStep (W : World) (c : NodeId → NodeId → Option ℚ) (l : LinkId) : NodeId → NodeId → Option ℚ :=
  let i := W.L.startN l
  let j := W.L.endN l
  upd c i (upd (c i) j (some (match c i j with
    | none => W.L.length l
    | some q => min q (W.L.length l))))

/-- The matrix of link lengths (Utilities.py:243–250). -/
def lengthMatrix (W : World) : NodeId → NodeId → Option ℚ :=
  (List.range W.nLinks).foldl W.lengthStep (fun _ _ => none)

/-- `get_shortest_path_distance_between_all_nodes` (Utilities.py:227–264) with `return_matrix=True`.
`sp` is `scipy.sparse.csgraph.dijkstra(csr_matrix(..))`, uninterpreted: number of nodes and matrix to
distances. -/
def distancesAll (W : World) (sp : ℕ → (NodeId → NodeId → Option ℚ) → NodeId → NodeId → Option ℚ) :
    NodeId → NodeId → Option ℚ :=
  sp W.nNodes W.lengthMatrix

/-! ## k shortest routes -/

/-- `G[u][v]['weight']` (Utilities.py:80–82): a `DiGraph` has one edge per pair of nodes, the last link
added sets its weight. Node names are unique, so nodes are identified by their ids. -/
def graphOf (W : World) (cost : LinkId → ℚ) : NodeId → NodeId → Option ℚ :=
  (List.range W.nLinks).foldl (fun g l => upd g (W.L.startN l) (upd (g (W.L.startN l)) (W.L.endN l) (some (cost l))))
    (fun _ _ => none)

/-- The links listed for a path of nodes (Utilities.py:88–92). -/
def routeOf (W : World) (path : List NodeId) : List LinkId :=
  path.dropLast.flatMap fun n => (List.range W.nLinks).filter fun l =>
    decide (W.L.startN l = n) && decide (path[path.idxOf n + 1]? = some (W.L.endN l))

/-- `sum([G[u][v]['weight'] for u, v in zip(path[:-1], path[1:])])` (Utilities.py:94). -/
def pathWeight (g : NodeId → NodeId → Option ℚ) (path : List NodeId) : ℚ :=
  ((path.dropLast.zip path.tail).map fun uv => (g uv.1 uv.2).getD 0).sum

/-- `enumerate_k_shortest_routes` (Utilities.py:54–107) and, with the cost at time `t`,
`enumerate_k_shortest_routes_on_t` (110–163), with `return_cost=True`. `ksp` is
`list(nx.shortest_simple_paths(..))`, uninterpreted; `none` is the exception for unknown or unconnected
nodes. Link ids stand for link names. Exact arithmetic. -/
def kShortest (W : World) (ksp : (NodeId → NodeId → Option ℚ) → NodeId → NodeId → Option (List (List NodeId)))
    (cost : LinkId → ℚ) (source target : Ref) (k : ℕ) : M (List (List LinkId) × List ℚ) := do
  let g := W.graphOf cost
  let s ← W.getNode source
  let t ← W.getNode target
  match ksp g s t with
  | none => .error .exception
  | some ps => .ok ((ps.take k).map W.routeOf, (ps.take k).map (pathWeight g))

/-! ## Random routes -/

/-- `NODE_PAIR_LINKS` (uxsim.py:2348–2361): the last link added between two nodes. -/
def pairLink (W : World) (a b : NodeId) : Option LinkId :=
  (List.range W.nLinks).foldl (fun r l => if W.L.startN l = a ∧ W.L.endN l = b then some l else r) none

/-- `NODE_PAIR_LINKS[a, b]`; the dictionary exists after `finalize_scenario` only. -/
def pairLinkM (W : World) (ab : NodeId × NodeId) : M LinkId :=
  if W.finalized = false then .error .attributeError
  else match W.pairLink ab.1 ab.2 with
    | some l => .ok l
    | none => .error .keyError

/-- The route of a path of nodes (Utilities.py:205–209). -/
def linksOn (W : World) (path : List NodeId) : M (List LinkId) := (path.zip path.tail).mapM W.pairLinkM

/-- `dict_routes`, a `defaultdict(list)`: keys in order of insertion and values. -/
structure RouteDict where
  keys : List (NodeId × NodeId)
  val : NodeId × NodeId → List (List LinkId)

/-- Reading an entry of a `defaultdict` creates it. -/
def RouteDict.touch (D : RouteDict) (k : NodeId × NodeId) : RouteDict :=
  if k ∈ D.keys then D else { keys := D.keys ++ [k], val := upd D.val k [] }

/-- One pair of nodes in one iteration (Utilities.py:203–211). -/
def randomPair (W : World) (k : ℕ) (D : RouteDict) (x : (NodeId × NodeId) × List NodeId) : M RouteDict :=
  let D := D.touch x.1
  if (D.val x.1).length < k then do
    let r ← W.linksOn x.2
    .ok (if r ∈ D.val x.1 then D else { D with val := upd D.val x.1 (D.val x.1 ++ [r]) })
  else .ok D

/-- Edge weights of iteration `it` (Utilities.py:194–199): `rnd it l` is the number drawn for link `l`. -/
def randomCost (W : World) (rnd : ℕ → LinkId → ℚ) (it : ℕ) (l : LinkId) : ℚ :=
  if it = 0 then W.L.length l / W.L.u l else W.L.length l / W.L.u l * rnd it l

/-- The sum of the numbers of routes. -/
def RouteDict.total (D : RouteDict) : ℕ := (D.keys.map fun k => (D.val k).length).sum

/-- The `while 1` loop of `enumerate_k_random_routes` (Utilities.py:189–224). `fuel` bounds the number
of iterations; running out of it is `Err.diverge`. `ap` is `dict(nx.all_pairs_dijkstra_path(G))`, read
in order as pairs of nodes with their paths, uninterpreted. Exact arithmetic. -/
def randomLoop (W : World) (k : ℕ) (ap : (NodeId → NodeId → Option ℚ) → List ((NodeId × NodeId) × List NodeId))
    (rnd : ℕ → LinkId → ℚ) : (fuel it counter : ℕ) → (old : ℚ) → RouteDict → M RouteDict
  | 0, _, _, _, _ => .error .diverge
  | fuel + 1, it, counter, old, D => do
    let D ← (ap (W.graphOf (W.randomCost rnd it))).foldlM (W.randomPair k) D
    if D.keys.length = 0 then .error .zeroDivision
    else
      let avg : ℚ := (D.total : ℚ) / D.keys.length
      let counter := if avg = old then counter + 1 else 0
      if 10 < counter then .ok D else W.randomLoop k ap rnd fuel (it + 1) counter avg D

/-- `enumerate_k_random_routes` (Utilities.py:165–224) for the Python engine. A division by a link speed
of 0 is not modelled as an error. -/
def randomRoutes (W : World) (k : ℕ) (ap : (NodeId → NodeId → Option ℚ) → List ((NodeId × NodeId) × List NodeId))
    (rnd : ℕ → LinkId → ℚ) (fuel : ℕ) : M RouteDict :=
  W.randomLoop k ap rnd fuel 0 0 0 { keys := [], val := fun _ => [] }

end World
end UX
