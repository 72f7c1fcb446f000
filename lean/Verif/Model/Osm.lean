import Verif.Model.Base
import Mathlib.Data.List.Infix

/-!
# Import from OpenStreetMap (`OSMImporter/OSMImporter.py`)

The graph that `osmnx` downloads is an input. Node ids are natural numbers. Coordinates and the distance of two
points (`math.sqrt`, OSMImporter.py:207–208) are a parameter `dist`. Printing and drawing are left out.
-/

namespace UX
namespace Osm

/-- `d[k] = v` of a Python dict as the list of its items in order (language semantics, used at
OSMImporter.py:104, 170–171, 212, 229, 231, 266, 277). -/
def dSet {α β : Type} [DecidableEq α] : List (α × β) → α → β → List (α × β)
  | [], k, v => [(k, v)]
  | p :: r, k, v => if p.1 = k then (k, v) :: r else p :: dSet r k v

/-- `d.get(k)`. -/
def dGet {α β : Type} [DecidableEq α] (d : List (α × β)) (k : α) : Option β :=
  (d.find? (fun p => decide (p.1 = k))).map Prod.snd

/-- A node `[node_id, x, y]` (OSMImporter.py:104). -/
structure ONode where
  id : ℕ
  x : ℚ
  y : ℚ
  deriving DecidableEq, Repr

/-- A link `[name, from, to, lanes, maxspeed]` (OSMImporter.py:168), later with the length as sixth entry
(OSMImporter.py:266). `len` of a link without sixth entry is arbitrary; nothing reads it. -/
structure OLink where
  name : String
  src : ℕ
  dst : ℕ
  lanes : ℤ
  speed : ℚ
  len : ℚ
  deriving DecidableEq, Repr

/-! ## `import_osm_data` -/

/-- `ed["highway"]`: a string or a list of strings. -/
inductive RoadType
  | one (s : String)
  | many (l : List String)
  deriving DecidableEq, Repr

/-- `s in road_type` (OSMImporter.py:128–138): substring of a string, element of a list. -/
def RoadType.has (r : RoadType) (s : String) : Bool :=
  match r with
  | .one t => decide (s.toList <:+: t.toList)
  | .many l => decide (s ∈ l)

/-- The `default_…` arguments (OSMImporter.py:36–45). -/
structure Defaults (α : Type) where
  motorway : α
  trunk : α
  primary : α
  secondary : α
  residential : α
  tertiary : α
  others : α

/-- The default of a road type (OSMImporter.py:128–141, 150–163); the test for motorways is spelled
`"mortorway"` in the code. -/
def Defaults.pick {α : Type} (d : Defaults α) (r : RoadType) : α :=
  if r.has "mortorway" then d.motorway
  else if r.has "trunk" then d.trunk
  else if r.has "primary" then d.primary
  else if r.has "secondary" then d.secondary
  else if r.has "residential" then d.residential
  else if r.has "tertiary" then d.tertiary
  else d.others

/-- An edge of the downloaded graph with the data of `get_edge_data(u, v)[0]` (OSMImporter.py:108–123, 147):
`name` is the result of the naming rules, `lanes` and `speed` (km/h) are `none` where the conversion to a number
fails. -/
structure OEdge where
  u : ℕ
  v : ℕ
  highway : Option RoadType
  name : String
  lanes : Option ℤ
  speed : Option ℚ

/-- The link of an edge (OSMImporter.py:111–168); floats are exact here. -/
def importLink (dl : Defaults ℤ) (ds : Defaults ℚ) (e : OEdge) : Option OLink :=
  match e.highway with
  | none => none
  | some r => some
    { name := e.name, src := e.u, dst := e.v
      lanes := match e.lanes with
        | some n => n
        | none => if dl.pick r < 1 then 1 else dl.pick r
      speed := match e.speed with
        | some s => s / (18 / 5)
        | none => ds.pick r / (18 / 5)
      len := 0 }

/-- `nodes[e[0]] = …; nodes[e[1]] = …` for the edges with a road type (OSMImporter.py:107–108, 170–171). -/
def importNodes (pos : ℕ → ℚ × ℚ) (es : List OEdge) : List (ℕ × ONode) :=
  es.foldl (fun d e => match e.highway with
    | none => d
    | some _ => dSet (dSet d e.u ⟨e.u, (pos e.u).1, (pos e.u).2⟩) e.v ⟨e.v, (pos e.v).1, (pos e.v).2⟩) []

/-- `import_osm_data` (OSMImporter.py:34–179) after the download: `pos` are the coordinates in the graph. -/
def importData (dl : Defaults ℤ) (ds : Defaults ℚ) (pos : ℕ → ℚ × ℚ) (es : List OEdge) :
    List ONode × List OLink :=
  ((importNodes pos es).map Prod.snd, es.filterMap (importLink dl ds))

/-! ## `osm_network_postprocessing` -/

/-- `node_positions` (OSMImporter.py:212). -/
def positions (nodes : List ONode) : List (ℕ × (ℚ × ℚ)) :=
  nodes.foldl (fun d n => dSet d n.id (n.x, n.y)) []

/-- `node_positions[n]` (OSMImporter.py:221–222, 263). -/
def posOf (P : List (ℕ × (ℚ × ℚ))) (n : ℕ) : M (ℚ × ℚ) :=
  match dGet P n with
  | some p => .ok p
  | none => .error .keyError

/-- The two registrations of a short link (OSMImporter.py:228–231). -/
def mergePair (D : List (ℕ × ℕ)) (s e : ℕ) : List (ℕ × ℕ) :=
  let D1 := if e ∉ D.map Prod.snd ∧ s ∉ D.map Prod.fst then dSet D e s else D
  if s ∉ D1.map Prod.snd ∧ e ∉ D1.map Prod.fst then dSet D1 s e else D1

/-- One link of the loop (OSMImporter.py:219–233). -/
def mergeLink (dist : ℚ × ℚ → ℚ × ℚ → ℚ) (thr : ℚ) (P : List (ℕ × (ℚ × ℚ))) (D : List (ℕ × ℕ)) (l : OLink) :
    M (List (ℕ × ℕ)) := do
  let p ← posOf P l.src
  let q ← posOf P l.dst
  if dist p q ≤ thr then .ok (mergePair D l.src l.dst) else .ok D

/-- `delete_node_map` (OSMImporter.py:216–233). -/
def mergeMap (dist : ℚ × ℚ → ℚ × ℚ → ℚ) (thr : ℚ) (P : List (ℕ × (ℚ × ℚ))) (links : List OLink) :
    M (List (ℕ × ℕ)) :=
  links.foldlM (mergeLink dist thr P) []

/-- The node that takes the place of `n` (OSMImporter.py:258–261). -/
def image (D : List (ℕ × ℕ)) (n : ℕ) : ℕ := (dGet D n).getD n

/-- One link of the second loop (OSMImporter.py:252–266). -/
def relink (dist : ℚ × ℚ → ℚ × ℚ → ℚ) (P : List (ℕ × (ℚ × ℚ))) (D : List (ℕ × ℕ))
    (A : List ((ℕ × ℕ) × OLink)) (l : OLink) : M (List ((ℕ × ℕ) × OLink)) := do
  let a := image D l.src
  let b := image D l.dst
  let p ← posOf P a
  let q ← posOf P b
  if a ≠ b then .ok (dSet A (a, b) { l with src := a, dst := b, len := dist p q }) else .ok A

/-- The reverse of a link (OSMImporter.py:269–277). -/
def addReverse (A : List ((ℕ × ℕ) × OLink)) (l : OLink) : List ((ℕ × ℕ) × OLink) :=
  if (l.dst, l.src) ∈ A.map Prod.fst then A
  else dSet A (l.dst, l.src) { l with name := l.name ++ "-reverse", src := l.dst, dst := l.src }

/-- The reverse links, if `enforce_bidirectional` (OSMImporter.py:268–277). -/
def addReverses (both : Bool) (A : List ((ℕ × ℕ) × OLink)) : List ((ℕ × ℕ) × OLink) :=
  if both then (A.map Prod.snd).foldl addReverse A else A

/-- One round of the loop (OSMImporter.py:210–295). -/
def mergeRound (dist : ℚ × ℚ → ℚ × ℚ → ℚ) (thr : ℚ) (both : Bool) (N : List ONode × List OLink) :
    M (List ONode × List OLink) := do
  let P := positions N.1
  let D ← mergeMap dist thr P N.2
  let A ← N.2.foldlM (relink dist P D) []
  let links := (addReverses both A).map Prod.snd
  let kept := N.1.filter (fun n => decide (n.id ∉ D.map Prod.fst))
  .ok (kept.filter (fun n => decide (n.id ∈ links.map OLink.src ++ links.map OLink.dst)), links)

/-- `osm_network_postprocessing` (OSMImporter.py:181–301). -/
def postprocess (dist : ℚ × ℚ → ℚ × ℚ → ℚ) (thr : ℚ) (both : Bool) :
    ℕ → List ONode × List OLink → M (List ONode × List OLink)
  | 0, N => .ok N
  | k + 1, N => do
    let N1 ← mergeRound dist thr both N
    postprocess dist thr both k N1

end Osm
end UX
