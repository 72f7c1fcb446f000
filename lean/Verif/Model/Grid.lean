import Verif.Model.Build

/-!
# Grid networks (Utilities.py:15–51)
-/

namespace UX
namespace World

/-- `f"n{(i,j)}"` (Utilities.py:36). -/
def gridNode (i j : ℕ) : String := "n(" ++ toString i ++ ", " ++ toString j ++ ")"

/-- `f"l{(i,j,k,m)}"` (Utilities.py:43–49). -/
def gridLink (i j k m : ℕ) : String :=
  "l(" ++ toString i ++ ", " ++ toString j ++ ", " ++ toString k ++ ", " ++ toString m ++ ")"

/-- The nodes (Utilities.py:33–36): `flow_capacity=1.6`, position `(i, j)`, all else by default.
The literal 1.6 is rounded like any float. -/
def gridNodes (W : World) (fuel imax jmax : ℕ) : M World :=
  let cap := W.fl (8 / 5)
  (List.range imax).foldlM (fun W i => (List.range jmax).foldlM (fun W j =>
    W.addNode fuel { name := gridNode i j, x := i, y := j, flowCap := some cap }) W) W

/-- The neighbours of `(i, j)` in the order of the code (Utilities.py:42–49). -/
def gridNext (imax jmax i j : ℕ) : List (ℕ × ℕ) :=
  (if i ≠ imax - 1 then [(i + 1, j)] else []) ++ (if i ≠ 0 then [(i - 1, j)] else []) ++
  (if j ≠ jmax - 1 then [(i, j + 1)] else []) ++ (if j ≠ 0 then [(i, j - 1)] else [])

/-- The links (Utilities.py:39–49). `node i j` is the node object `nodes[i,j]`, `kw` are the keyword
arguments passed on to `addLink`. -/
def gridLinks (W : World) (node : ℕ → ℕ → NodeId) (kw : LinkArgs) (imax jmax : ℕ) : M World :=
  (List.range imax).foldlM (fun W i => (List.range jmax).foldlM (fun W j =>
    (gridNext imax jmax i j).foldlM (fun W p =>
      W.addLink { kw with name := some (gridLink i j p.1 p.2), startN := .obj (node i j), endN := .obj (node p.1 p.2) }) W) W) W

/-- `generate_grid_network` (Utilities.py:15–51). Nodes get consecutive ids, so `nodes[i,j]` is the node
number `i * jmax + j` after those that were there before. -/
def gridNetwork (W : World) (fuel imax jmax : ℕ) (kw : LinkArgs) : M World := do
  let W1 ← W.gridNodes fuel imax jmax
  W1.gridLinks (fun i j => W.nNodes + i * jmax + j) kw imax jmax

end World
end UX
