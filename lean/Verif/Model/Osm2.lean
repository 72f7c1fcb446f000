import Verif.Model.Osm

/-!
# Import from OpenStreetMap, second importer (`OSMImporter2/OSMImporter2.py`)

The table of roads that `osmnx` and `neatnet` produce is an input: per road the two end points, the length and the
attributes. Rounding of coordinates to six digits is a function `rnd`, conversion of strings to numbers a function. The
result is the list of nodes and the list of calls of `addLink`; warnings and the statistics printed at the end are left
out. The world is empty before the import and no two roads have the same name, so that `auto_rename` changes nothing; the
name is a string. An empty list of speeds (its mean is `nan`) counts as not convertible.
-/

namespace UX
namespace Osm2
open Osm (dSet dGet)

/-- A cell of the table: missing, a string, or a list of strings. -/
inductive Cell
  | none
  | str (s : String)
  | list (l : List String)
  deriving DecidableEq, Repr

/-- A row of the table of roads. -/
structure Road where
  a : ℚ × ℚ
  b : ℚ × ℚ
  length : ℚ
  name : String
  highway : Cell
  maxspeed : Cell
  lanes : Cell
  oneway : Bool
  deriving DecidableEq, Repr

/-! ## `_extract_network_from_geodataframe` -/

/-- `nodes` and `node_id_map` (OSMImporter2.py:95–97). -/
structure Net where
  nodes : List (ℚ × ℚ)
  map : List ((ℚ × ℚ) × ℕ)

/-- Registration of an end point (OSMImporter2.py:111–120, 123–132). -/
def addPoint (rnd : ℚ × ℚ → ℚ × ℚ) (S : Net) (p : ℚ × ℚ) : Net :=
  if rnd p ∈ S.map.map Prod.fst then S
  else { nodes := S.nodes ++ [p], map := dSet S.map (rnd p) S.nodes.length }

/-- The end points of all roads (OSMImporter2.py:102–132). -/
def extractNet (rnd : ℚ × ℚ → ℚ × ℚ) (roads : List Road) : Net :=
  roads.foldl (fun S r => addPoint rnd (addPoint rnd S r.a) r.b) { nodes := [], map := [] }

/-- `node_id_map[key]` (OSMImporter2.py:137–138). A number once given is not changed, so it can be read at the end. -/
def nodeId (rnd : ℚ × ℚ → ℚ × ℚ) (S : Net) (p : ℚ × ℚ) : ℕ := (dGet S.map (rnd p)).getD 0

/-! ## Road types, speeds and lanes -/

/-- `Counter(l).most_common(1)[0][0]`: of the most frequent the one that comes first. -/
def mostCommon (l : List String) : Option String :=
  l.foldl (fun m s => match m with
    | none => some s
    | some t => if l.count t < l.count s then some s else some t) none

/-- The string in a cell. -/
def Cell.toStr : Cell → Option String
  | .str s => some s
  | _ => Option.none

/-- `highway_type` of row `i` and the new entry of the column (OSMImporter2.py:242–268): `ends` are the node numbers of the
rows, `hw` the column. The code takes the links that leave the *first* end as downstream (OSMImporter2.py:248). A list
among the neighbours makes `Counter` raise. -/
def roadType (ends : List (ℕ × ℕ)) (hw : List Cell) (i : ℕ) : String × List Cell :=
  match hw.getD i .none with
  | .str s => (s, hw)
  | .list l => match mostCommon l with
    | some s => (s, hw.set i (.str s))
    | none => ("None", hw)
  | .none =>
    let from_ := (ends.getD i (0, 0)).1
    let rows := ends.zip hw
    let conn := (rows.filter (fun r => decide (r.1.2 = from_))).map Prod.snd ++
      (rows.filter (fun r => decide (r.1.1 = from_))).map Prod.snd
    let conn := conn.filter (fun c => decide (c ≠ .none))
    if conn = [] then ("None", hw.set i (.str "None"))
    else if conn.all (fun c => c.toStr.isSome) then
      match mostCommon (conn.filterMap Cell.toStr) with
      | some s => (s, hw.set i (.str s))
      | none => ("None", hw)
    else ("None", hw)

/-- The types of all rows in order (OSMImporter2.py:228, 242–268). -/
def roadTypes (ends : List (ℕ × ℕ)) (hw : List Cell) : ℕ → List String × List Cell
  | 0 => ([], hw)
  | n + 1 =>
    let p := roadTypes ends hw n
    let q := roadType ends p.2 n
    (p.1 ++ [q.1], q.2)

/-- `lanes_dict` (OSMImporter2.py:205–215). -/
def lanesDict : List (String × ℤ) :=
  [("motorway", 3), ("trunk", 3), ("primary", 2), ("secondary", 2), ("tertiary", 2), ("residential", 1),
   ("living_street", 1), ("service", 1), ("others", 1)]

/-- `maxspeed_dict` (OSMImporter2.py:190–201), exact. -/
def speedDict : List (String × ℚ) :=
  [("motorway", 100), ("trunk", 80), ("primary", 60), ("secondary", 50), ("tertiary", 40), ("residential", 30),
   ("living_street", 20), ("service", 20), ("others", 40)].map (fun p => (p.1, p.2 / (18 / 5)))

/-- The settings of the user take the place of the defaults (OSMImporter2.py:202–203, 216–217). -/
def override {α : Type} (d user : List (String × α)) : List (String × α) :=
  user.foldl (fun d p => dSet d p.1 p.2) d

/-- `for key in dict: if key in highway_type: … break` (OSMImporter2.py:278–281, 299–305). -/
def typeEntry {α : Type} (d : List (String × α)) (t : String) : Option α :=
  (d.find? (fun p => decide (p.1.toList <:+: t.toList))).map Prod.snd

/-- `max` of a list. -/
def maxOf : List ℤ → Option ℤ
  | [] => none
  | x :: r => some (r.foldl max x)

/-- `maxspeed` (OSMImporter2.py:270–284). -/
def roadSpeed (num : String → Option ℚ) (d : List (String × ℚ)) (ignore : Bool) (c : Cell) (t : String) : ℚ :=
  let others := (dGet d "others").getD 0
  match c, ignore with
  | .str s, false => match num s with
    | some v => v / (18 / 5)
    | none => others
  | .list l, false => match l.mapM num with
    | some vs => if vs = [] then others else vs.sum / vs.length / (18 / 5)
    | none => others
  | _, _ => (typeEntry d t).getD others

/-- `lanes` before the two directions are separated (OSMImporter2.py:290–308). -/
def roadLanes (int : String → Option ℤ) (d : List (String × ℤ)) (ignore oneway : Bool) (c : Cell) (t : String) : ℤ :=
  let others := (dGet d "others").getD 0
  match c, ignore with
  | .str s, false => match int s with
    | some v => v
    | none => others
  | .list l, false => match l.mapM int with
    | some vs => (maxOf vs).getD others
    | none => others
  | _, _ => match typeEntry d t with
    | some v => if oneway then v else v * 2
    | none => others

/-- A call of `addLink` (OSMImporter2.py:311, 316–317). -/
structure LinkCall where
  name : String
  src : ℕ
  dst : ℕ
  length : ℚ
  speed : ℚ
  lanes : ℤ
  deriving DecidableEq, Repr

/-- The lanes of each direction of a two-way road (OSMImporter2.py:313–315). -/
def halfLanes (n : ℤ) : ℤ := if n.tdiv 2 ≤ 0 then 1 else n.tdiv 2

/-- The links of a road (OSMImporter2.py:310–317). -/
def linkCalls (r : Road) (s e : ℕ) (speed : ℚ) (lanes : ℤ) : List LinkCall :=
  if r.oneway then [⟨r.name, s, e, r.length, speed, lanes⟩]
  else [⟨r.name, s, e, r.length, speed, halfLanes lanes⟩,
    ⟨r.name ++ "-reverse", e, s, r.length, speed, halfLanes lanes⟩]

/-- The arguments of the importer and the conversions of strings. -/
structure Settings where
  rnd : ℚ × ℚ → ℚ × ℚ
  num : String → Option ℚ
  int : String → Option ℤ
  /-- `override_osm_attributes` -/
  ignore : Bool
  speeds : List (String × ℚ)
  lanes : List (String × ℤ)

/-- The calls for the roads with their types (OSMImporter2.py:228–317). -/
def attach (c : Settings) (S : Net) (roads : List (Road × String)) : List LinkCall :=
  roads.flatMap (fun p => linkCalls p.1 (nodeId c.rnd S p.1.a) (nodeId c.rnd S p.1.b)
    (roadSpeed c.num (override speedDict c.speeds) c.ignore p.1.maxspeed p.2)
    (roadLanes c.int (override lanesDict c.lanes) c.ignore p.1.oneway p.1.lanes p.2))

/-- `osm_network_to_World` after the download (OSMImporter2.py:393–394): the nodes, in order of their numbers, and the
calls of `addLink`. -/
def importAll (c : Settings) (roads : List Road) : List (ℚ × ℚ) × List LinkCall :=
  let S := extractNet c.rnd roads
  let ends := roads.map (fun r => (nodeId c.rnd S r.a, nodeId c.rnd S r.b))
  let types := (roadTypes ends (roads.map Road.highway) roads.length).1
  (S.nodes, attach c S (roads.zip types))

/-- `max_lanes` of a node (OSMImporter2.py:322); `none` is the `ValueError` of `max([])`. -/
def maxLanes (links : List LinkCall) (n : ℕ) : Option ℤ :=
  maxOf ((links.filter (fun l => decide (l.dst = n))).map LinkCall.lanes ++
    (links.filter (fun l => decide (l.src = n))).map LinkCall.lanes)

/-- `flow_capacity` and `number_of_lanes` of a node (OSMImporter2.py:323–324), exact. -/
def nodeCapacity (links : List LinkCall) (n : ℕ) : Option (ℚ × ℤ) :=
  (maxLanes links n).map (fun (m : ℤ) => ((m : ℚ) * (4 / 5) * 2, m * 2))

end Osm2
end UX
