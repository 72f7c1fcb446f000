import Verif.Model.CppSim

/-!
# Random routes of the C++ engine

`World::enumerate_k_random_routes_cpp` (traffi.cpp:1387–1481), also reached as
`dta_enumerate_od_route_sets_ids` (dta_solver.cpp:16–24, which moves the same map into the store of
the solvers). The numbers that `rdist(local_rng)` draws are a function of iteration and link: every
draw is used once. Weights and averages are rounded with `fl`; `int` does not overflow.
-/

namespace UX.Cpp
namespace CWorld

/-- `node_pair_link[a][b]` (traffi.cpp:1392–1395): the last link between two nodes, `-1` is `none`. -/
def pairLink (W : CWorld) (a b : ℕ) : Option ℕ :=
  (List.range W.g.nLinks).foldl
    (fun r l => if (W.link l).src = a ∧ (W.link l).dst = b then some l else r) none

/-- The weight of link `l` in iteration `it` (traffi.cpp:1414–1419). -/
def randWeight (W : CWorld) (rnd : ℕ → ℕ → ℚ) (it l : ℕ) : ℚ :=
  if it = 0 then W.g.fl ((W.link l).len / (W.link l).vmax)
  else W.g.fl (W.g.fl ((W.link l).len / (W.link l).vmax) * rnd it l)

/-- `adj` in iteration `it` (traffi.cpp:1407–1420): 0 where there is no link; the last of several links
between two nodes counts. -/
def randAdj (W : CWorld) (rnd : ℕ → ℕ → ℚ) (it a b : ℕ) : Option ℚ :=
  (List.range W.g.nLinks).foldl
    (fun r l => if (W.link l).src = a ∧ (W.link l).dst = b then some (W.randWeight rnd it l) else r)
    (some 0)

/-- What following the next hops gives: a path of links, `valid = false`, or no end. -/
inductive HopRes
  | path (ls : List ℕ)
  | invalid
  | diverge
  deriving DecidableEq

/-- The inner `while (cur != dst)` (traffi.cpp:1441–1451) with `next a` for `next_hop[a][dst]`. `fuel`
bounds the number of steps; the nodes number fewer than the bound used, so that running out of it
means going round in circles for ever. -/
def hopPath (W : CWorld) (next : ℕ → Option ℕ) (dst : ℕ) : (fuel cur : ℕ) → List ℕ → HopRes
  | 0, _, _ => .diverge
  | k + 1, cur, acc =>
    if cur = dst then .path acc
    else match next cur with
      | none => .invalid
      | some nxt =>
        if nxt = cur then .invalid
        else match W.pairLink cur nxt with
          | none => .invalid
          | some l => W.hopPath next dst k nxt (acc ++ [l])

/-- `dict_routes`: no entry is `none`. -/
abbrev RDict := ℕ × ℕ → Option (List (List ℕ))

/-- What the loops over `src` and `dst` change. -/
structure RState where
  dict : RDict
  routes : ℕ
  pairs : ℕ

/-- The body of the loops over `src` and `dst` (traffi.cpp:1431–1462); `none` if it never ends.
`next a b` stands for `next_hop[a][b]`. -/
def randPair (W : CWorld) (k : ℤ) (next : ℕ → ℕ → Option ℕ) (S : RState) (p : ℕ × ℕ) : Option RState :=
  if p.1 = p.2 then some S
  else if next p.1 p.2 = none then some S
  else
    let rs := (S.dict p).getD []
    let S1 : RState := { dict := upd S.dict p (some rs), routes := S.routes + rs.length, pairs := S.pairs + 1 }
    if k ≤ (rs.length : ℤ) then some S1
    else match W.hopPath (fun a => next a p.2) p.2 (W.g.nNodes + 1) p.1 [] with
      | .diverge => none
      | .invalid => some S1
      | .path r =>
        if r = [] then some S1
        else if r ∈ rs then some S1
        else some { S1 with dict := upd S1.dict p (some (rs ++ [r])) }

/-- The pairs of nodes in the order of the two loops (traffi.cpp:1429–1430). -/
def nodePairs (W : CWorld) : List (ℕ × ℕ) :=
  (List.range W.g.nNodes).flatMap (fun a => (List.range W.g.nNodes).map (fun b => (a, b)))

/-- `rsa_next` after `route_search_all(adj, 0.0)` (traffi.cpp:1423–1424). -/
def randNext (W : CWorld) (rnd : ℕ → ℕ → ℚ) (it a b : ℕ) : Option ℕ :=
  (dijkstra W.g.fl W.g.nNodes (W.randAdj rnd it) a).next b

/-- One iteration up to the convergence check (traffi.cpp:1411–1464). -/
def randIter (W : CWorld) (k : ℤ) (rnd : ℕ → ℕ → ℚ) (it : ℕ) (D : RDict) : Option RState :=
  W.nodePairs.foldlM (W.randPair k (W.randNext rnd it)) { dict := D, routes := 0, pairs := 0 }

/-- The average of the convergence check (traffi.cpp:1467–1468). -/
def RState.average (fl : ℚ → ℚ) (S : RState) : ℚ :=
  if 0 < S.pairs then fl ((S.routes : ℚ) / (S.pairs : ℚ)) else 0

/-- The outer loop (traffi.cpp:1409–1478); `none` if it does not end within `fuel` iterations. -/
def randLoop (W : CWorld) (k : ℤ) (rnd : ℕ → ℕ → ℚ) :
    (fuel it counter : ℕ) → (old : ℚ) → RDict → Option RDict
  | 0, _, _, _, _ => none
  | fuel + 1, it, counter, old, D =>
    match W.randIter k rnd it D with
    | none => none
    | some S =>
      let avg := S.average W.g.fl
      let c := if avg = old then counter + 1 else 0
      let o := if avg = old then old else avg
      if 10 < c then some S.dict else W.randLoop k rnd fuel (it + 1) c o S.dict

/-- `enumerate_k_random_routes_cpp(k, seed)` (traffi.cpp:1387–1481). -/
def randomRoutes (W : CWorld) (k : ℤ) (rnd : ℕ → ℕ → ℚ) (fuel : ℕ) : Option RDict :=
  W.randLoop k rnd fuel 0 0 0 (fun _ => none)

end CWorld
end UX.Cpp
